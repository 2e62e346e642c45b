import Verif.Typing.KwModel
import Verif.Typing.Lookup

/-!
# Keyword arguments and overrides (C82)
-/

namespace Verif.Typing

variable {t : Tree}

/-! ## Specification -/

/-- `q` is reached from `p` by one or more steps to the parent definition: `p` overrides `q`, directly or not. -/
inductive Overrides (t : Tree) : Proc → Proc → Prop
  | one {p q : Proc} : ParentOf t p q → Overrides t p q
  | more {p q r : Proc} : ParentOf t p q → Overrides t q r → Overrides t p r

/-- The definition exists. -/
def Exists (t : Tree) (p : Proc) : Prop := p.idx < (t.procs p.ty p.name).length

/-- Proc `n` is called on type `i` with keyword `k`. -/
def Used (uses : List KwUse) (i : Nat) (n k : Ident) : Prop := ∃ u ∈ uses, u.src = i ∧ u.proc.name = n ∧ u.name = k

/-- Definition `q` lacks a parameter `k` with which `n` is called on type `i`. -/
def Lacks (t : Tree) (uses : List KwUse) (i : Nat) (n : Ident) (q : Proc) (k : Ident) : Prop :=
  Used uses i n k ∧ k ∉ (t.info q).params

/-- `procs` lists all definitions, those of the same proc on the same type in order. -/
structure Visits (t : Tree) (order : List Proc) : Prop where
  all : ∀ p, p ∈ order ↔ Exists t p
  sorted : order.Pairwise fun p q => p.ty = q.ty → p.name = q.name → p.idx < q.idx

/-- Definition `q` is the one to be noted for its type: an override of the only definition on `i` that lacks a keyword, and
the latest such one on its type. -/
structure Culprit (t : Tree) (uses : List KwUse) (i : Nat) (n : Ident) (q : Proc) : Prop where
  notGlobal : i ≠ 0
  single : (t.procs i n).length = 1
  def_ : Exists t q
  overrides : Overrides t q ⟨i, n, 0⟩
  lacks : ∃ k, Lacks t uses i n q k
  latest : ∀ q', q'.ty = q.ty → q'.name = n → Exists t q' → q.idx < q'.idx → ∀ k, ¬ Lacks t uses i n q' k

/-! ## Maps -/

section Maps
variable {α β : Type} [DecidableEq α]

theorem lookup_upsert (k k' : α) (new : β) (upd : β → β) : ∀ l : List (α × β),
    (upsert k new upd l).lookup k' = if k' = k then some (match l.lookup k with | none => new | some v => upd v) else l.lookup k'
  | [] => by
    by_cases h : k' = k
    · subst h; simp [upsert]
    · have h1 : (k' == k) = false := beq_eq_false_iff_ne.2 h
      simp [upsert, h, List.lookup, h1]
  | (a, v) :: l => by
    rw [upsert]
    by_cases ha : a = k
    · subst ha
      rw [if_pos rfl]
      by_cases h : k' = a
      · subst h; simp
      · have h1 : (k' == a) = false := beq_eq_false_iff_ne.2 h
        simp [h, List.lookup, h1]
    · rw [if_neg ha, List.lookup_cons, List.lookup_cons, lookup_upsert k k' new upd l]
      by_cases h : k' = a
      · subst h; simp [ha]
      · have h1 : (k' == a) = false := by simpa using h
        have h2 : (k == a) = false := by simpa using fun x => ha x.symm
        simp only [h1, List.lookup_cons, h2]

theorem lookup_modify (k k' : α) (upd : β → β) : ∀ l : List (α × β),
    (modify k upd l).lookup k' = if k' = k then (l.lookup k').map upd else l.lookup k'
  | [] => by simp [modify]
  | (a, v) :: l => by
    rw [modify]
    by_cases ha : a = k
    · subst ha
      rw [if_pos rfl]
      by_cases h : k' = a
      · subst h; simp
      · have h1 : (k' == a) = false := beq_eq_false_iff_ne.2 h
        simp [h, List.lookup, h1]
    · rw [if_neg ha, List.lookup_cons, List.lookup_cons, lookup_modify k k' upd l]
      by_cases h : k' = a
      · subst h; simp [ha]
      · have h1 : (k' == a) = false := by simpa using h
        simp only [h1]

theorem keys_upsert (k : α) (new : β) (upd : β → β) : ∀ l : List (α × β),
    (upsert k new upd l).map Prod.fst = if k ∈ l.map Prod.fst then l.map Prod.fst else l.map Prod.fst ++ [k]
  | [] => by simp [upsert]
  | (a, v) :: l => by
    rw [upsert]
    by_cases ha : a = k
    · subst ha; simp
    · have : k ≠ a := fun h => ha h.symm
      rw [if_neg ha, List.map_cons, keys_upsert k new upd l]
      simp only [List.map_cons, List.mem_cons, this, false_or]
      split <;> simp_all

theorem nodup_upsert (k : α) (new : β) (upd : β → β) (l : List (α × β)) (h : (l.map Prod.fst).Nodup) :
    ((upsert k new upd l).map Prod.fst).Nodup := by
  rw [keys_upsert]
  split
  · exact h
  · rename_i hk
    rw [List.nodup_append]
    refine ⟨h, by simp, ?_⟩
    rintro a ha b hb rfl
    cases List.mem_singleton.1 hb
    exact hk ha

theorem keys_modify (k : α) (upd : β → β) : ∀ l : List (α × β), (modify k upd l).map Prod.fst = l.map Prod.fst
  | [] => rfl
  | (a, v) :: l => by
    rw [modify]
    split
    · rfl
    · rw [List.map_cons, keys_modify k upd l]; rfl

theorem mem_lookup {l : List (α × β)} (h : (l.map Prod.fst).Nodup) (k : α) (v : β) :
    (k, v) ∈ l ↔ l.lookup k = some v := by
  induction l with
  | nil => simp
  | cons x l ih =>
    obtain ⟨a, w⟩ := x
    rw [List.map_cons, List.nodup_cons] at h
    rw [List.mem_cons, List.lookup_cons, ih h.2]
    by_cases hk : k = a
    · subst hk
      simp only [Prod.mk.injEq, true_and, beq_self_eq_true]
      constructor
      · rintro (rfl | h1)
        · rfl
        · exact absurd (List.mem_map.2 ⟨_, (ih h.2).2 h1, rfl⟩) h.1
      · intro h1; cases h1; exact .inl rfl
    · have h1 : (k == a) = false := by simpa using hk
      simp [hk, h1]

end Maps

/-! ## Parents -/

theorem defines_name {i : Nat} {n : Ident} {q : Proc} (h : Defines t i n q) : q.name = n := by
  induction h with
  | own _ => rfl
  | inherited _ _ _ ih => exact ih

theorem parentOf_name {p q : Proc} (h : ParentOf t p q) : q.name = p.name := by
  cases h with
  | earlier => rfl
  | inherited _ hd =>
    exact defines_name hd

theorem defines_sum {i : Nat} {n : Ident} {q : Proc} (h : Defines t i n q) :
    q.name = n ∧ q.idx + 1 = (t.procs q.ty n).length ∧
      t.above q < ((t.chain i).map fun j => (t.procs j n).length).sum := by
  induction h with
  | @own i n k hk =>
    refine ⟨rfl, hk.symm, ?_⟩
    unfold Tree.above
    cases hp : t.parent i with
    | none => rw [chain_none hp]; simp [hk]
    | some p => rw [chain_some hp]; simp [hk]
  | inherited hn hp _ ih =>
    refine ⟨ih.1, ih.2.1, ?_⟩
    rw [chain_some hp]
    simp only [List.map_cons, List.sum_cons]
    omega

theorem above_lt {p q : Proc} (h : ParentOf t p q) : t.above q < t.above p := by
  cases h with
  | earlier => simp [Tree.above]
  | @inherited i j n q hp hd =>
    have := (defines_sum hd).2.2
    unfold Tree.above
    simp only [chain_some hp, List.tail_cons, Nat.zero_add]
    exact this

theorem parentsFrom_mem : ∀ (f : Nat) (p : Proc), t.above p ≤ f → ∀ q, q ∈ t.parentsFrom f p ↔ Overrides t p q
  | 0, p, hf, q => by
    rw [Tree.parentsFrom]
    constructor
    · nofun
    · intro h
      cases h with
      | one h => have := above_lt h; omega
      | more h _ => have := above_lt h; omega
  | f + 1, p, hf, q => by
    rw [Tree.parentsFrom]
    cases hp : t.parentProc p with
    | none =>
      constructor
      · nofun
      · intro h
        cases h with
        | one h => rw [(parentProc_iff _ _).2 h] at hp; cases hp
        | more h _ => rw [(parentProc_iff _ _).2 h] at hp; cases hp
    | some r =>
      have hr := (parentProc_iff _ _).1 hp
      have hlt := above_lt hr
      simp only [List.mem_cons]
      rw [parentsFrom_mem f r (by omega) q]
      constructor
      · rintro (rfl | h)
        · exact .one hr
        · exact .more hr h
      · intro h
        cases h with
        | one h => rw [(parentProc_iff _ _).2 h] at hp; cases hp; exact .inl rfl
        | more h h' => rw [(parentProc_iff _ _).2 h] at hp; cases hp; exact .inr h'

theorem parents_mem (p q : Proc) : q ∈ t.parents p ↔ Overrides t p q := parentsFrom_mem _ p Nat.le.refl q

theorem overrides_name {p q : Proc} (h : Overrides t p q) : q.name = p.name := by
  induction h with
  | one h => exact parentOf_name h
  | more h _ ih => rw [ih, parentOf_name h]

theorem parentOf_exists {p q : Proc} (hp : Exists t p) (h : ParentOf t p q) : Exists t q := by
  cases h with
  | earlier => unfold Exists at *; simp only at *; omega
  | inherited _ hd =>
    have := defines_sum hd
    unfold Exists
    rw [this.1]
    omega

theorem overrides_exists {p q : Proc} (hp : Exists t p) (h : Overrides t p q) : Exists t q := by
  induction h with
  | one h => exact parentOf_exists hp h
  | more h _ ih => exact ih (parentOf_exists hp h)

/-! ## The uses -/

/-- The uses of one key. -/
def usesOf (k : Key) (uses : List KwUse) : List KwUse := uses.filter fun u => u.key = k

/-- What the uses of one key leave. -/
def KwInfo.calls (i : KwInfo) (us : List KwUse) : KwInfo := us.foldl (fun i u => i.call u.name u.loc) i

theorem record_lookup (k : Key) : ∀ (uses : List KwUse) (s : KwState),
    (uses.foldl record s).lookup k = match s.lookup k, usesOf k uses with
      | some i, us => some (i.calls us)
      | none, [] => none
      | none, u :: us => some (KwInfo.calls ⟨u.proc, [], []⟩ (u :: us))
  | [], s => by cases h : s.lookup k <;> simp [usesOf, KwInfo.calls, h]
  | u :: uses, s => by
    rw [List.foldl_cons, record_lookup k uses]
    unfold record
    rw [lookup_upsert]
    by_cases h : u.key = k
    · subst h
      have : usesOf u.key (u :: uses) = u :: usesOf u.key uses := by simp [usesOf]
      rw [if_pos rfl, this]
      cases s.lookup u.key <;> rfl
    · have h' : k ≠ u.key := fun hx => h hx.symm
      have : usesOf k (u :: uses) = usesOf k uses := by simp [usesOf, h]
      rw [if_neg h', this]

theorem record_nodup : ∀ (uses : List KwUse) (s : KwState), (s.map Prod.fst).Nodup →
    ((uses.foldl record s).map Prod.fst).Nodup
  | [], _, h => h
  | u :: uses, s, h => record_nodup uses _ (nodup_upsert _ _ _ s h)

theorem calls_rest : ∀ (us : List KwUse) (i : KwInfo), (i.calls us).proc = i.proc ∧ (i.calls us).bad = i.bad
  | [], _ => ⟨rfl, rfl⟩
  | u :: us, i => calls_rest us (i.call u.name u.loc)

theorem calls_nodup : ∀ (us : List KwUse) (i : KwInfo), (i.called.map Prod.fst).Nodup →
    ((i.calls us).called.map Prod.fst).Nodup
  | [], _, h => h
  | u :: us, i, h => calls_nodup us (i.call u.name u.loc) (nodup_upsert _ _ _ _ h)

theorem calls_lookup (n : Ident) : ∀ (us : List KwUse) (i : KwInfo),
    (i.calls us).called.lookup n = match i.called.lookup n, us.filter fun u => u.name = n with
      | some c, vs => some (c.1, c.2 + vs.length)
      | none, [] => none
      | none, v :: vs => some (v.loc, vs.length)
  | [], i => by cases h : i.called.lookup n <;> simp [KwInfo.calls, h]
  | u :: us, i => by
    have : i.calls (u :: us) = (i.call u.name u.loc).calls us := rfl
    rw [this, calls_lookup n us]
    unfold KwInfo.call
    rw [lookup_upsert]
    by_cases h : u.name = n
    · subst h
      rw [if_pos rfl, List.filter_cons_of_pos (by simp)]
      cases h : i.called.lookup u.name with
      | none => simp
      | some c => simp; omega
    · rw [if_neg (fun hx => h hx.symm), List.filter_cons_of_neg (by simpa using h)]

/-! ## The definitions -/

theorem upsert_twice {α β : Type} [DecidableEq α] (k : α) (x : β) : ∀ l : List (α × β),
    upsert k x (fun _ => x) (upsert k x (fun _ => x) l) = upsert k x (fun _ => x) l
  | [] => by simp [upsert]
  | (a, v) :: l => by
    by_cases h : a = k
    · simp [upsert, h]
    · simp [upsert, h, upsert_twice k x l]

theorem check_missing (ps qs : List Ident) (p : Proc) (i : KwInfo) : (i.check ps p).missing qs = i.missing qs := by
  unfold KwInfo.check
  split <;> rfl

theorem check_twice (ps : List Ident) (p : Proc) (i : KwInfo) : (i.check ps p).check ps p = i.check ps p := by
  by_cases h : (i.missing ps).isEmpty = true
  · have : i.check ps p = i := by unfold KwInfo.check; rw [if_pos h]
    rw [this, this]
  · have h1 : ∀ j : KwInfo, j.missing ps = i.missing ps → j.check ps p =
        { j with bad := upsert p.ty (p, i.missing ps) (fun _ => (p, i.missing ps)) j.bad } := by
      intro j hj
      unfold KwInfo.check
      rw [hj, if_neg h]
    rw [h1 (i.check ps p) (check_missing _ _ _ _), h1 i rfl]
    simp only [upsert_twice]

theorem modify_all (k : Key) (f : KwInfo → KwInfo) (hf : ∀ i, f (f i) = f i) : ∀ (ks : List Key) (s : KwState),
    (ks.foldl (fun s q => modify q f s) s).lookup k = if k ∈ ks then (s.lookup k).map f else s.lookup k
  | [], s => by simp
  | q :: ks, s => by
    rw [List.foldl_cons, modify_all k f hf ks, lookup_modify]
    by_cases h : k = q
    · subst h
      simp only [List.mem_cons_self, if_true, Option.map_map]
      have : f ∘ f = f := funext hf
      rw [this]
      split <;> rfl
    · simp [h]

theorem checkKwargs_lookup (k : Key) (s : KwState) (p : Proc) :
    (checkKwargs t s p).lookup k = (s.lookup k).map fun i =>
      if k ∈ (t.parents p).map t.key then i.check (t.info p).params p else i := by
  unfold checkKwargs
  have := modify_all k (KwInfo.check (t.info p).params p) (check_twice _ _) ((t.parents p).map t.key) s
  rw [List.foldl_map] at this
  rw [this]
  split
  · rfl
  · cases s.lookup k <;> rfl

/-- What the visit of the definitions does to one key. -/
def KwInfo.checks (t : Tree) (k : Key) (i : KwInfo) (ps : List Proc) : KwInfo :=
  ps.foldl (fun i p => if k ∈ (t.parents p).map t.key then i.check (t.info p).params p else i) i

theorem checks_lookup (k : Key) : ∀ (ps : List Proc) (s : KwState),
    (ps.foldl (checkKwargs t) s).lookup k = (s.lookup k).map fun i => i.checks t k ps
  | [], s => by
    rw [List.foldl_nil]
    cases s.lookup k <;> rfl
  | p :: ps, s => by
    rw [List.foldl_cons, checks_lookup k ps, checkKwargs_lookup, Option.map_map]
    rfl

theorem checks_nodup : ∀ (ps : List Proc) (s : KwState), (s.map Prod.fst).Nodup →
    ((ps.foldl (checkKwargs t) s).map Prod.fst).Nodup
  | [], _, h => h
  | p :: ps, s, h => by
    refine checks_nodup ps _ ?_
    unfold checkKwargs
    generalize t.parents p = qs
    induction qs generalizing s with
    | nil => exact h
    | cons q qs ih => exact ih _ (by rw [keys_modify]; exact h)

/-- The definition changes the note about its type. -/
def KwInfo.hit (t : Tree) (k : Key) (i : KwInfo) (T : Nat) (p : Proc) : Bool :=
  decide (p.ty = T ∧ k ∈ (t.parents p).map t.key ∧ i.missing (t.info p).params ≠ [])

theorem checks_keep (k : Key) : ∀ (ps : List Proc) (i : KwInfo),
    (i.checks t k ps).called = i.called ∧ (i.checks t k ps).proc = i.proc
  | [], _ => ⟨rfl, rfl⟩
  | p :: ps, i => by
    have h := checks_keep k ps (if k ∈ (t.parents p).map t.key then i.check (t.info p).params p else i)
    have : i.checks t k (p :: ps) = KwInfo.checks t k (if k ∈ (t.parents p).map t.key then i.check (t.info p).params p else i) ps := rfl
    rw [this, h.1, h.2]
    split
    · unfold KwInfo.check; split <;> exact ⟨rfl, rfl⟩
    · exact ⟨rfl, rfl⟩

theorem checks_snoc (k : Key) (ps : List Proc) (p : Proc) (i : KwInfo) : i.checks t k (ps ++ [p]) =
    if k ∈ (t.parents p).map t.key then (i.checks t k ps).check (t.info p).params p else i.checks t k ps := by
  unfold KwInfo.checks
  rw [List.foldl_append]
  rfl

theorem checks_bad (k : Key) (i : KwInfo) (T : Nat) (ps : List Proc) :
    (i.checks t k ps).bad.lookup T = match (ps.filter (i.hit t k T)).getLast? with
      | some p => some (p, i.missing (t.info p).params)
      | none => i.bad.lookup T := by
  generalize hr : ps.reverse = rs
  induction rs generalizing ps with
  | nil =>
    have : ps = [] := by simpa using hr
    subst this
    rfl
  | cons p rs ih =>
    have : ps = rs.reverse ++ [p] := by rw [← List.reverse_reverse ps, hr, List.reverse_cons]
    subst this
    have ih := ih rs.reverse (List.reverse_reverse rs)
    have hm : (i.checks t k rs.reverse).missing (t.info p).params = i.missing (t.info p).params := by
      unfold KwInfo.missing
      rw [(checks_keep k rs.reverse i).1]
    rw [checks_snoc, List.filter_append]
    by_cases hk : k ∈ (t.parents p).map t.key
    · rw [if_pos hk]
      unfold KwInfo.check
      rw [hm]
      by_cases he : i.missing (t.info p).params = []
      · rw [if_pos (by simp [he]), List.filter_cons_of_neg (by simp [KwInfo.hit, he])]
        simpa using ih
      · rw [if_neg (by simpa using he)]
        simp only [lookup_upsert]
        by_cases hT : p.ty = T
        · rw [if_pos hT.symm, List.filter_cons_of_pos (by simp only [KwInfo.hit, decide_eq_true_eq]; exact ⟨hT, hk, he⟩)]
          simp only [List.filter_nil, List.getLast?_concat]
          cases List.lookup p.ty _ <;> rfl
        · rw [if_neg (fun hx => hT hx.symm), List.filter_cons_of_neg (by simp [KwInfo.hit, hT])]
          simpa using ih
    · rw [if_neg hk, List.filter_cons_of_neg (by simp only [KwInfo.hit, decide_eq_true_eq]; exact fun hx => hk hx.2.1)]
      simpa using ih

theorem checks_bad_nodup (k : Key) : ∀ (ps : List Proc) (i : KwInfo), (i.bad.map Prod.fst).Nodup →
    ((i.checks t k ps).bad.map Prod.fst).Nodup
  | [], _, h => h
  | p :: ps, i, h => by
    refine checks_bad_nodup k ps _ ?_
    simp only
    split
    · unfold KwInfo.check
      split
      · exact h
      · exact nodup_upsert _ _ _ _ h
    · exact h

/-! ## Keys -/

theorem use_key (u : KwUse) (k : Key) : u.key = k ↔
    u.proc.name = k.name ∧ k.nth = none ∧ (u.src = 0 ∧ k.ty = .global ∨ u.src ≠ 0 ∧ k.ty = .path u.src) := by
  obtain ⟨ty, n, nth⟩ := k
  unfold KwUse.key
  by_cases h : u.src = 0 <;> simp only [h, if_true, if_false, Key.mk.injEq, not_true_eq_false, false_and, or_false, true_and,
    ne_eq, not_false_eq_true, false_or] <;> constructor <;> rintro ⟨h1, h2, h3⟩ <;> simp_all

theorem hits_iff {p : Proc} (hp : Exists t p) (ty : KeyTy) (n : Ident) : (⟨ty, n, none⟩ : Key) ∈ (t.parents p).map t.key ↔
    ∃ i, ty = .path i ∧ Overrides t p ⟨i, n, 0⟩ ∧ (t.procs i n).length = 1 := by
  simp only [List.mem_map, parents_mem]
  constructor
  · rintro ⟨⟨i, m, j⟩, hq, hk⟩
    simp only [Tree.key, Key.mk.injEq] at hk
    obtain ⟨rfl, rfl, hn⟩ := hk
    have he := overrides_exists hp hq
    unfold Exists at he
    simp only at he
    split at hn
    · cases hn
    · have : j = 0 := by omega
      subst this
      exact ⟨i, rfl, hq, by omega⟩
  · rintro ⟨i, rfl, hq, hl⟩
    exact ⟨_, hq, by simp [Tree.key, hl]⟩

theorem hits_nth {p : Proc} {k : Key} (hp : Exists t p) (hk : k.nth = none) (h : k ∈ (t.parents p).map t.key) :
    ∃ i, k.ty = .path i := by
  obtain ⟨ty, n, nth⟩ := k
  cases hk
  obtain ⟨i, h1, _⟩ := (hits_iff hp ty n).1 h
  exact ⟨i, h1⟩

theorem used_iff (uses : List KwUse) (i : Nat) (hi : i ≠ 0) (n k : Ident) :
    Used uses i n k ↔ ∃ u ∈ usesOf ⟨.path i, n, none⟩ uses, u.name = k := by
  unfold Used usesOf
  simp only [List.mem_filter, decide_eq_true_eq, use_key, true_and, KeyTy.path.injEq]
  constructor
  · rintro ⟨u, h1, h2, h3, h4⟩
    exact ⟨u, ⟨h1, h3, .inr ⟨by omega, h2.symm⟩⟩, h4⟩
  · rintro ⟨u, ⟨h1, h3, ⟨_, h⟩ | ⟨_, h⟩⟩, h4⟩
    · cases h
    · exact ⟨u, h1, h.symm, h3, h4⟩

/-- What is in the state of a key at the end. -/
theorem final_lookup (uses : List KwUse) (order : List Proc) (k : Key) :
    (order.foldl (checkKwargs t) (uses.foldl record [])).lookup k = match usesOf k uses with
      | [] => none
      | u :: us => some ((KwInfo.calls ⟨u.proc, [], []⟩ (u :: us)).checks t k order) := by
  rw [checks_lookup, record_lookup]
  simp only [List.lookup_nil]
  cases usesOf k uses <;> rfl

theorem called_mem {us : List KwUse} {p : Proc} (n : Ident) :
    n ∈ (KwInfo.calls ⟨p, [], []⟩ us).called.map Prod.fst ↔ ∃ u ∈ us, u.name = n := by
  have h := calls_lookup n us ⟨p, [], []⟩
  simp only [List.lookup_nil] at h
  have hn := calls_nodup us ⟨p, [], []⟩ (by simp)
  constructor
  · intro hm
    obtain ⟨⟨a, v⟩, h1, rfl⟩ := List.mem_map.1 hm
    rw [(mem_lookup hn a v).1 h1] at h
    cases hf : us.filter fun u => u.name = a with
    | nil => rw [hf] at h; cases h
    | cons w ws =>
      have hw : w ∈ us.filter fun u => u.name = a := by rw [hf]; exact List.mem_cons_self
      simp only [List.mem_filter, decide_eq_true_eq] at hw
      exact ⟨w, hw.1, hw.2⟩
  · rintro ⟨u, hu, rfl⟩
    cases hf : us.filter fun v => v.name = u.name with
    | nil =>
      have : u ∈ us.filter fun v => v.name = u.name := by simp [hu]
      rw [hf] at this
      cases this
    | cons w ws =>
      rw [hf] at h
      exact List.mem_map.2 ⟨_, (mem_lookup hn _ _).2 h, rfl⟩

theorem missing_iff {uses : List KwUse} {i : Nat} (hi : i ≠ 0) {n : Ident} {p q : Proc} (k : Ident) :
    k ∈ (KwInfo.calls ⟨p, [], []⟩ (usesOf ⟨.path i, n, none⟩ uses)).missing (t.info q).params ↔ Lacks t uses i n q k := by
  unfold KwInfo.missing Lacks
  rw [List.mem_filter, called_mem, used_iff uses i hi]
  simp

/-! ## The last of some elements of a list -/

theorem getLast_filter {α : Type} (f : α → Bool) (l : List α) (x : α) (h : (l.filter f).getLast? = some x) :
    ∃ a b, l = a ++ x :: b ∧ f x = true ∧ ∀ y ∈ b, f y = false := by
  generalize hr : l.reverse = rs at *
  induction rs generalizing l with
  | nil =>
    have : l = [] := by simpa using hr
    subst this
    simp at h
  | cons z rs ih =>
    have : l = rs.reverse ++ [z] := by rw [← List.reverse_reverse l, hr, List.reverse_cons]
    subst this
    rw [List.filter_append] at h
    cases hz : f z with
    | true =>
      rw [List.filter_cons_of_pos hz, List.filter_nil, List.getLast?_concat] at h
      cases h
      exact ⟨rs.reverse, [], rfl, hz, by simp⟩
    | false =>
      rw [List.filter_cons_of_neg (by simp [hz]), List.filter_nil, List.append_nil] at h
      obtain ⟨a, b, h1, h2, h3⟩ := ih rs.reverse h (List.reverse_reverse rs)
      refine ⟨a, b ++ [z], by rw [h1]; simp, h2, ?_⟩
      intro y hy
      rcases List.mem_append.1 hy with hy | hy
      · exact h3 y hy
      · cases List.mem_singleton.1 hy; exact hz

theorem filter_getLast {α : Type} (f : α → Bool) (a b : List α) (x : α) (h1 : f x = true) (h2 : ∀ y ∈ b, f y = false) :
    ((a ++ x :: b).filter f).getLast? = some x := by
  have : b.filter f = [] := List.filter_eq_nil_iff.2 (by intro y hy; simp [h2 y hy])
  rw [List.filter_append, List.filter_cons_of_pos h1, this, List.getLast?_concat]

theorem overrides_later {q q' r : Proc} (h1 : q'.ty = q.ty) (h2 : q'.name = q.name) (h3 : q.idx < q'.idx)
    (h : Overrides t q r) : Overrides t q' r := by
  obtain ⟨ty, nm, j⟩ := q
  obtain ⟨ty', nm', j'⟩ := q'
  simp only at h1 h2 h3
  subst h1 h2
  induction j' with
  | zero => omega
  | succ j' ih =>
    by_cases hj : j = j'
    · subst hj; exact .more .earlier h
    · exact .more .earlier (ih (by omega))

/-! ## The theorems -/

theorem reports_mem (uses : List KwUse) (order : List Proc) (r : KwReport) : r ∈ kwReports t uses order ↔
    ∃ u us, usesOf r.base uses = u :: us ∧
      ((KwInfo.calls ⟨u.proc, [], []⟩ (u :: us)).checks t r.base order).report r.base = some r := by
  have hn := checks_nodup (t := t) order (uses.foldl record []) (record_nodup uses [] (by simp))
  unfold kwReports finishKwargs
  rw [List.mem_filterMap]
  constructor
  · rintro ⟨⟨k, i⟩, h1, h2⟩
    have hk : r.base = k := by
      unfold KwInfo.report at h2
      simp only at h2
      split at h2
      · cases h2
      · cases h2; rfl
    subst hk
    have h3 := (mem_lookup hn _ _).1 h1
    rw [final_lookup] at h3
    cases hu : usesOf r.base uses with
    | nil => rw [hu] at h3; cases h3
    | cons u us =>
      rw [hu] at h3
      cases h3
      exact ⟨u, us, rfl, h2⟩
  · rintro ⟨u, us, h1, h2⟩
    refine ⟨(r.base, _), (mem_lookup hn _ _).2 ?_, h2⟩
    rw [final_lookup, h1]
    rfl

/-- The note about a type, if there is a report. -/
theorem note_iff {uses : List KwUse} {order : List Proc} (hv : Visits t order) {i : Nat} {n : Ident} (hi : i ≠ 0)
    (u : KwUse) (T : Nat) (q : Proc) (ks : List Ident) :
    ((KwInfo.calls ⟨u.proc, [], []⟩ (usesOf ⟨.path i, n, none⟩ uses)).checks t ⟨.path i, n, none⟩ order).bad.lookup T = some (q, ks) ↔
      T = q.ty ∧ Culprit t uses i n q ∧
      ks = (KwInfo.calls ⟨u.proc, [], []⟩ (usesOf ⟨.path i, n, none⟩ uses)).missing (t.info q).params := by
  rw [checks_bad, (calls_rest _ _).2]
  have hhit : ∀ p, Exists t p → (KwInfo.hit t ⟨.path i, n, none⟩ (KwInfo.calls ⟨u.proc, [], []⟩
      (usesOf ⟨.path i, n, none⟩ uses)) T p = true ↔ p.ty = T ∧ (Overrides t p ⟨i, n, 0⟩ ∧ (t.procs i n).length = 1) ∧
        ∃ k, Lacks t uses i n p k) := by
    intro p hp
    unfold KwInfo.hit
    rw [decide_eq_true_eq, hits_iff hp]
    refine and_congr Iff.rfl (and_congr ?_ ?_)
    · constructor
      · rintro ⟨j, hj, h⟩; cases hj; exact h
      · intro h; exact ⟨i, rfl, h⟩
    · constructor
      · intro h
        obtain ⟨k, hk⟩ := List.exists_mem_of_ne_nil _ h
        exact ⟨k, (missing_iff hi k).1 hk⟩
      · rintro ⟨k, hk⟩
        exact List.ne_nil_of_mem ((missing_iff hi k).2 hk)
  constructor
  · intro h
    split at h
    · rename_i p hl
      cases h
      obtain ⟨a, b, h1, h2, h3⟩ := getLast_filter _ _ _ hl
      have he := (hv.all q).1 (by rw [h1]; simp)
      obtain ⟨h4, ⟨h5, h6⟩, h7⟩ := (hhit q he).1 h2
      refine ⟨h4.symm, ⟨hi, h6, he, h5, h7, ?_⟩, rfl⟩
      intro q' h8 h9 h10 h11 k hk
      have hm := (hv.all q').2 h10
      have hs := hv.sorted
      rw [h1] at hm hs
      have hname := overrides_name h5
      rcases List.mem_append.1 hm with hm | hm
      · have := (List.pairwise_append.1 hs).2.2 q' hm q List.mem_cons_self h8 (by rw [h9]; exact hname)
        omega
      · rcases List.mem_cons.1 hm with rfl | hm
        · omega
        · have hb := h3 q' hm
          have : Overrides t q' ⟨i, n, 0⟩ := overrides_later h8 (by rw [h9]; exact hname) h11 h5
          rw [(hhit q' h10).2 ⟨by rw [h8, h4], ⟨this, h6⟩, k, hk⟩] at hb
          cases hb
    · cases h
  · rintro ⟨rfl, hc, rfl⟩
    obtain ⟨a, b, h1⟩ := List.append_of_mem ((hv.all q).2 hc.def_)
    rw [h1, filter_getLast]
    · exact (hhit q hc.def_).2 ⟨rfl, ⟨hc.overrides, hc.single⟩, hc.lacks⟩
    · intro y hy
      have hy' := (hv.all y).1 (by rw [h1]; simp [hy])
      cases hh : KwInfo.hit t ⟨.path i, n, none⟩ (KwInfo.calls ⟨u.proc, [], []⟩ (usesOf ⟨.path i, n, none⟩ uses)) q.ty y with
      | false => rfl
      | true =>
        obtain ⟨h4, ⟨h5, _⟩, k, hk⟩ := (hhit y hy').1 hh
        have hs := hv.sorted
        rw [h1] at hs
        have hname := overrides_name hc.overrides
        have hname' := overrides_name h5
        have hlt := (List.pairwise_cons.1 (List.pairwise_append.1 hs).2.1).1 y hy h4.symm (by rw [← hname, ← hname'])
        exact absurd hk (hc.latest y h4 hname'.symm hy' hlt k)

/-- A report is about a type other than the root. -/
theorem report_base {uses : List KwUse} {order : List Proc} (hv : Visits t order) {r : KwReport}
    (hr : r ∈ kwReports t uses order) : ∃ i n, r.base = ⟨.path i, n, none⟩ ∧ i ≠ 0 := by
  obtain ⟨u, us, h1, h2⟩ := (reports_mem uses order r).1 hr
  have hu : u ∈ usesOf r.base uses := by rw [h1]; exact List.mem_cons_self
  have hk := (use_key u r.base).1 (by simpa [usesOf] using (List.mem_filter.1 hu).2)
  obtain ⟨hn, hnth, ⟨h3, h4⟩ | ⟨h3, h4⟩⟩ := hk
  · exfalso
    have hb : ((KwInfo.calls ⟨u.proc, [], []⟩ (u :: us)).checks t r.base order).bad = [] := by
      have hne : ∀ T, ((KwInfo.calls ⟨u.proc, [], []⟩ (u :: us)).checks t r.base order).bad.lookup T = none := by
        intro T
        rw [checks_bad, (calls_rest _ _).2]
        cases hl : (order.filter (KwInfo.hit t r.base (KwInfo.calls ⟨u.proc, [], []⟩ (u :: us)) T)).getLast? with
        | none => rfl
        | some p =>
          obtain ⟨a, b, e1, e2, _⟩ := getLast_filter _ _ _ hl
          unfold KwInfo.hit at e2
          rw [decide_eq_true_eq] at e2
          obtain ⟨i, hi⟩ := hits_nth ((hv.all p).1 (by rw [e1]; simp)) hnth e2.2.1
          rw [h4] at hi
          cases hi
      generalize KwInfo.bad _ = bad at hne
      cases bad with
      | nil => rfl
      | cons x bad => have := hne x.1; simp [List.lookup] at this
    unfold KwInfo.report at h2
    rw [hb] at h2
    simp at h2
  · refine ⟨u.src, r.base.name, ?_, h3⟩
    cases hb : r.base with
    | mk ty n nth => rw [hb] at hnth h4; simp only at hnth h4; rw [hnth, h4]

/-- **C82**: what a report says: its notes are, for every type below, about the latest definition there that lacks a keyword
with which the proc is called, and list exactly the keywords it lacks; the places are the first of each such keyword, with
the number of others. -/
theorem kwargs_sound {uses : List KwUse} {order : List Proc} (hv : Visits t order) {r : KwReport}
    (hr : r ∈ kwReports t uses order) : ∃ i n, r.base = ⟨.path i, n, none⟩ ∧ r.notes ≠ [] ∧
      (r.notes.map Prod.fst).Nodup ∧
      (∀ T q ks, (T, q, ks) ∈ r.notes → T = q.ty ∧ Culprit t uses i n q ∧ ∀ k, k ∈ ks ↔ Lacks t uses i n q k) ∧
      (∃ u, (uses.filter fun v => v.src = i ∧ v.proc.name = n).head? = some u ∧ r.proc = u.proc) ∧
      ∀ k l m, (k, l, m) ∈ r.sites ↔ (∃ T q ks, (T, q, ks) ∈ r.notes ∧ k ∈ ks) ∧
        ∃ u us, (uses.filter fun v => v.src = i ∧ v.proc.name = n ∧ v.name = k) = u :: us ∧ u.loc = l ∧ us.length = m := by
  obtain ⟨i, n, hb, hi⟩ := report_base hv hr
  obtain ⟨u, us, h1, h2⟩ := (reports_mem uses order r).1 hr
  rw [hb] at h1 h2
  have hf : ∀ v : KwUse, v.key = ⟨.path i, n, none⟩ ↔ v.src = i ∧ v.proc.name = n := by
    intro v
    rw [use_key]
    simp only [true_and, KeyTy.path.injEq, reduceCtorEq, and_false, false_or]
    constructor
    · rintro ⟨e1, e2, e3⟩; exact ⟨e3.symm, e1⟩
    · rintro ⟨e1, e2⟩; exact ⟨e2, by omega, e1.symm⟩
  have hfilter : usesOf ⟨.path i, n, none⟩ uses = uses.filter fun v => v.src = i ∧ v.proc.name = n := by
    unfold usesOf
    exact List.filter_congr fun v _ => by simp only [hf]
  have hkeep := checks_keep (t := t) ⟨.path i, n, none⟩ order (KwInfo.calls ⟨u.proc, [], []⟩ (u :: us))
  have hbadn := checks_bad_nodup (t := t) ⟨.path i, n, none⟩ order (KwInfo.calls ⟨u.proc, [], []⟩ (u :: us))
    (by rw [(calls_rest _ _).2]; simp)
  unfold KwInfo.report at h2
  split at h2
  · cases h2
  rename_i hne
  cases h2
  refine ⟨i, n, rfl, by simpa using hne, hbadn, ?_, ⟨u, by rw [← hfilter, h1]; rfl, ?_⟩, ?_⟩
  · intro T q ks hm
    have hl := (mem_lookup hbadn T (q, ks)).1 hm
    rw [← h1] at hl
    obtain ⟨e1, e2, e3⟩ := (note_iff hv hi u T q ks).1 hl
    subst e3
    exact ⟨e1, e2, fun k => missing_iff hi k⟩
  · rw [hkeep.2, (calls_rest _ _).1]
  · intro k l m
    simp only [List.mem_filter, hkeep.1, List.contains_iff_mem, List.mem_flatMap]
    have hc := calls_lookup k (u :: us) ⟨u.proc, [], []⟩
    simp only [List.lookup_nil] at hc
    have hcn := calls_nodup (u :: us) ⟨u.proc, [], []⟩ (by simp)
    rw [mem_lookup hcn, hc, ← h1, hfilter, List.filter_filter]
    have hfeq : (uses.filter fun a => decide (a.name = k) && decide (a.src = i ∧ a.proc.name = n)) =
        uses.filter fun v => v.src = i ∧ v.proc.name = n ∧ v.name = k :=
      List.filter_congr fun v _ => by
        rw [← Bool.decide_and]
        exact decide_eq_decide.2 ⟨fun h => ⟨h.2.1, h.2.2, h.1⟩, fun h => ⟨h.2.2, h.1, h.2.1⟩⟩
    rw [hfeq]
    constructor
    · rintro ⟨e1, ⟨T, q, ks⟩, e2, e3⟩
      refine ⟨⟨T, q, ks, e2, e3⟩, ?_⟩
      cases hu : uses.filter fun v => v.src = i ∧ v.proc.name = n ∧ v.name = k with
      | nil => rw [hu] at e1; cases e1
      | cons v vs => rw [hu] at e1; cases e1; exact ⟨v, vs, rfl, rfl, rfl⟩
    · rintro ⟨⟨T, q, ks, e2, e3⟩, v, vs, e4, rfl, rfl⟩
      rw [e4]
      exact ⟨rfl, (T, q, ks), e2, e3⟩

/-- **C82**: and nothing is left out: every such definition is noted in the report for that proc. -/
theorem kwargs_complete {uses : List KwUse} {order : List Proc} (hv : Visits t order) {i : Nat} {n : Ident} {q : Proc}
    (hc : Culprit t uses i n q) :
    ∃ r ∈ kwReports t uses order, r.base = ⟨.path i, n, none⟩ ∧ ∃ ks, (q.ty, q, ks) ∈ r.notes := by
  obtain ⟨k, ⟨w, hw, h1, h2, h3⟩, _⟩ := hc.lacks
  have hi := hc.notGlobal
  have hu : ∃ u us, usesOf ⟨.path i, n, none⟩ uses = u :: us := by
    cases he : usesOf ⟨.path i, n, none⟩ uses with
    | nil =>
      have : w ∈ usesOf ⟨.path i, n, none⟩ uses := by
        unfold usesOf
        rw [List.mem_filter, decide_eq_true_eq, use_key]
        exact ⟨hw, h2, rfl, .inr ⟨by omega, by rw [h1]⟩⟩
      rw [he] at this
      cases this
    | cons u us => exact ⟨u, us, rfl⟩
  obtain ⟨u, us, hu⟩ := hu
  have hl := (note_iff hv hi u q.ty q _).2 ⟨rfl, hc, rfl⟩
  have hbadn := checks_bad_nodup (t := t) ⟨.path i, n, none⟩ order (KwInfo.calls ⟨u.proc, [], []⟩ (u :: us))
    (by rw [(calls_rest _ _).2]; simp)
  rw [hu] at hl
  have hm := (mem_lookup hbadn _ _).2 hl
  have hrep : ∃ r, ((KwInfo.calls ⟨u.proc, [], []⟩ (u :: us)).checks t ⟨.path i, n, none⟩ order).report ⟨.path i, n, none⟩ = some r ∧
      r.base = ⟨.path i, n, none⟩ ∧ r.notes = ((KwInfo.calls ⟨u.proc, [], []⟩ (u :: us)).checks t ⟨.path i, n, none⟩ order).bad := by
    unfold KwInfo.report
    rw [if_neg (by simpa using List.ne_nil_of_mem hm)]
    exact ⟨_, rfl, rfl, rfl⟩
  obtain ⟨r, hr, hb, hnotes⟩ := hrep
  refine ⟨r, (reports_mem uses order r).2 ⟨u, us, by rw [hb, hu], by rw [hb]; exact hr⟩, hb, _, by rw [hnotes]; exact hm⟩

/-- **C82**: one report for each proc of a type. -/
theorem kwargs_once (uses : List KwUse) (order : List Proc) : ((kwReports t uses order).map KwReport.base).Nodup := by
  have hn := checks_nodup (t := t) order (uses.foldl record []) (record_nodup uses [] (by simp))
  unfold kwReports finishKwargs
  generalize List.foldl _ _ order = s at hn
  induction s with
  | nil => simp
  | cons x s ih =>
    rw [List.map_cons, List.nodup_cons] at hn
    rw [List.filterMap_cons]
    split
    · exact ih hn.2
    · rename_i r hr
      rw [List.map_cons, List.nodup_cons]
      refine ⟨?_, ih hn.2⟩
      intro hm
      obtain ⟨r', h1, h2⟩ := List.mem_map.1 hm
      obtain ⟨y, h3, h4⟩ := List.mem_filterMap.1 h1
      have hb : ∀ (k : Key) (i : KwInfo) (r : KwReport), i.report k = some r → r.base = k := by
        intro k i r h
        unfold KwInfo.report at h
        split at h
        · cases h
        · cases h; rfl
      rw [hb _ _ _ h4, hb _ _ _ hr] at h2
      exact hn.1 (List.mem_map.2 ⟨y, h3, h2⟩)

/-! ## A case, and what is missed -/

/-- `/a` (1) with a single `Go(x, y)`, `/a/b` (2) with `Go(x)`, `/c` (3) with `Go(x, y)` twice, `/c/d` (4) with `Go(x)`, and
`/a/b/e` (5) and `/a/f` (6) without one, `/a/f/g` (7) with `Go()`. -/
def kwTree : Tree where
  parent := fun
    | 1 => some 0
    | 2 => some 1
    | 3 => some 0
    | 4 => some 3
    | 5 => some 2
    | 6 => some 1
    | 7 => some 6
    | _ => none
  rank := fun
    | 1 => 1
    | 2 => 2
    | 3 => 1
    | 4 => 2
    | 5 => 3
    | 6 => 2
    | 7 => 3
    | _ => 0
  rank_lt := by
    intro c p h
    match c, h with
    | 1, h => cases h; decide
    | 2, h => cases h; decide
    | 3, h => cases h; decide
    | 4, h => cases h; decide
    | 5, h => cases h; decide
    | 6, h => cases h; decide
    | 7, h => cases h; decide
  path := fun _ => []
  find := fun _ => none
  nav := fun _ _ => none
  vars := fun _ _ => none
  procs := fun i n =>
    if n = "Go" then match i with
      | 1 => [{ params := ["x", "y"] }]
      | 2 => [{ params := ["x"] }]
      | 3 => [{ params := ["x", "y"] }, { params := ["x", "y"] }]
      | 4 => [{ params := ["x"] }]
      | 7 => [{ params := [] }]
      | _ => []
    else []
  kind := fun _ _ => none

/-- All its definitions. -/
def kwOrder : List Proc := [⟨1, "Go", 0⟩, ⟨2, "Go", 0⟩, ⟨7, "Go", 0⟩, ⟨3, "Go", 0⟩, ⟨3, "Go", 1⟩, ⟨4, "Go", 0⟩]

theorem kwOrder_visits : Visits kwTree kwOrder where
  sorted := by decide +kernel
  all := by
    rintro ⟨i, n, j⟩
    unfold Exists
    by_cases hn : n = "Go"
    · subst hn
      simp only [kwTree, if_true, kwOrder, List.mem_cons, List.not_mem_nil, or_false, Proc.mk.injEq, true_and]
      match i with
      | 0 => simp
      | 1 => simp
      | 2 => simp
      | 3 => simp; omega
      | 4 => simp
      | 5 => simp
      | 6 => simp
      | 7 => simp
      | i + 8 => simp
    · simp [kwTree, kwOrder, hn]

/-- Called with `y` on `/a`: `/a/b` and `/a/f/g` are noted. -/
theorem kw_noted : (kwReports kwTree [⟨1, ⟨1, "Go", 0⟩, "y", 10⟩, ⟨1, ⟨1, "Go", 0⟩, "y", 11⟩] kwOrder).map
    (fun r => (r.notes, r.sites)) =
    [([(2, ⟨2, "Go", 0⟩, ["y"]), (7, ⟨7, "Go", 0⟩, ["y"])], [("y", 10, 1)])] := by rfl

/-- Called with `y` on `/c`, which defines the proc twice: `/c/d`, which lacks the parameter, is not reported. -/
theorem kw_redefined_missed : Overrides kwTree ⟨4, "Go", 0⟩ ⟨3, "Go", 1⟩ ∧
    Lacks kwTree [⟨3, ⟨3, "Go", 1⟩, "y", 10⟩] 3 "Go" ⟨4, "Go", 0⟩ "y" ∧
    (kwReports kwTree [⟨3, ⟨3, "Go", 1⟩, "y", 10⟩] kwOrder).length = 0 :=
  ⟨.one (.inherited rfl (.own rfl)), ⟨⟨_, List.mem_cons_self, rfl, rfl, rfl⟩, by decide +kernel⟩, by decide +kernel⟩

/-- Called with `y` on `/a/f`, which inherits the proc: `/a/f/g`, which lacks the parameter, is not reported. -/
theorem kw_inherited_missed : Overrides kwTree ⟨7, "Go", 0⟩ ⟨1, "Go", 0⟩ ∧ Sub kwTree 7 6 ∧
    Lacks kwTree [⟨6, ⟨1, "Go", 0⟩, "y", 10⟩] 6 "Go" ⟨7, "Go", 0⟩ "y" ∧
    (kwReports kwTree [⟨6, ⟨1, "Go", 0⟩, "y", 10⟩] kwOrder).length = 0 :=
  ⟨.one (.inherited rfl (.inherited rfl rfl (.own rfl))), .up rfl (.refl _),
    ⟨⟨_, List.mem_cons_self, rfl, rfl, rfl⟩, by decide +kernel⟩, by decide +kernel⟩

end Verif.Typing
