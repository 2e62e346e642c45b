import Verif.Server.ExplorerProps

/-!
# C105: what an entry of the object tree explorer says
-/

namespace Verif.Explorer

open Verif.Objtree

/-! ## The order of names -/

theorem strLt_trans {a b c : List Char} (h : strLt a b = true) (h' : strLt b c = true) : strLt a c = true := by
  induction a generalizing b c with
  | nil =>
    cases c with
    | nil => cases b <;> simp [strLt] at h'
    | cons _ _ => rfl
  | cons x a ih =>
    cases b with
    | nil => simp [strLt] at h
    | cons y b =>
      cases c with
      | nil => simp [strLt] at h'
      | cons z c =>
        simp only [strLt] at h h' ⊢
        split at h
        · split at h'
          · rw [if_pos (by omega)]
          · split at h'
            · cases h'
            · rw [if_pos (by omega)]
        · split at h
          · cases h
          · split at h'
            · rw [if_pos (by omega)]
            · split at h'
              · cases h'
              · rw [if_neg (by omega), if_neg (by omega)]
                exact ih h h'

theorem strLt_tri (a b : List Char) : strLt a b = true ∨ a = b ∨ strLt b a = true := by
  induction a generalizing b with
  | nil => cases b with
    | nil => exact .inr (.inl rfl)
    | cons _ _ => exact .inl rfl
  | cons x a ih => cases b with
    | nil => exact .inr (.inr rfl)
    | cons y b =>
      simp only [strLt]
      by_cases h1 : x.toNat < y.toNat
      · rw [if_pos h1]; exact .inl rfl
      · by_cases h2 : y.toNat < x.toNat
        · exact .inr (.inr (if_pos h2))
        · have : x = y := Char.toNat_inj.1 (by omega)
          subst this
          simp only [if_neg h1]
          rcases ih b with h | h | h
          · exact .inl h
          · exact .inr (.inl (by rw [h]))
          · exact .inr (.inr h)

theorem strLt_irrefl (a : List Char) : strLt a a = false := by
  induction a with
  | nil => rfl
  | cons x a ih => simp only [strLt]; rw [if_neg (by omega), if_neg (by omega)]; exact ih

theorem byName_trans {A : Type} (name : A → Ident) (a b c : A) (h : byName name a b = true) (h' : byName name b c = true) :
    byName name a c = true := by
  unfold byName at *
  rw [Bool.not_eq_true'] at *
  cases hc : strLt (name c) (name a) with
  | false => rfl
  | true =>
    rcases strLt_tri (name a) (name b) with h1 | h1 | h1
    · rw [strLt_trans hc h1] at h'; cases h'
    · rw [h1] at hc; rw [hc] at h'; cases h'
    · rw [h1] at h; cases h

theorem byName_total {A : Type} (name : A → Ident) (a b : A) : (byName name a b || byName name b a) = true := by
  unfold byName
  cases h : strLt (name b) (name a) with
  | false => rfl
  | true =>
    cases h' : strLt (name a) (name b) with
    | false => rfl
    | true => have := strLt_trans h h'; rw [strLt_irrefl] at this; cases this

/-- sorted by name: no later one is before an earlier one -/
def SortedByName {A : Type} (name : A → Ident) (l : List A) : Prop := l.Pairwise fun a b => strLt (name b) (name a) = false

theorem sort_sorted {A : Type} (name : A → Ident) (l : List A) : SortedByName name (l.mergeSort (byName name)) := by
  have := List.pairwise_mergeSort (byName_trans name) (byName_total name) l
  exact this.imp fun h => by unfold byName at h; simpa using h

theorem sort_filter {A : Type} (name : A → Ident) (l : List A) (x : Ident) :
    (l.mergeSort (byName name)).filter (fun a => name a = x) = l.filter fun a => name a = x := by
  have hp : (l.filter fun a => decide (name a = x)).Pairwise (fun a b => byName name a b = true) := by
    refine List.Pairwise.imp_of_mem (R := fun _ _ => True) ?_ (List.pairwise_of_forall fun _ _ => trivial)
    intro a b ha hb _
    have ha := (List.mem_filter.1 ha).2
    have hb := (List.mem_filter.1 hb).2
    simp only [decide_eq_true_eq] at ha hb
    unfold byName
    rw [ha, hb, strLt_irrefl]; rfl
  have hs := List.sublist_mergeSort (byName_trans name) (byName_total name) hp (List.filter_sublist (p := fun a => decide (name a = x)) (l := l))
  have hs := hs.filter (fun a => decide (name a = x))
  rw [List.filter_filter] at hs
  simp only [Bool.and_self] at hs
  exact (hs.eq_of_length ((List.mergeSort_perm l _).filter _).length_eq.symm).symm

/-! ## The names of a type are different -/

theorem iset_keys {K W : Type} [DecidableEq K] {k : K} {w : W} {l : List (K × W)} (h : (l.map Prod.fst).Nodup) :
    ((iset k w l).map Prod.fst).Nodup := by
  have key : ∀ l : List (K × W), ∀ x, x ∈ (iset k w l).map Prod.fst → x = k ∨ x ∈ l.map Prod.fst := by
    intro l
    induction l with
    | nil => intro x hx; simp [iset] at hx; exact .inl hx
    | cons e l ih =>
      intro x hx
      obtain ⟨a, b⟩ := e
      simp only [iset] at hx
      split at hx
      · rename_i hk
        rcases List.mem_cons.1 hx with hx | hx
        · exact .inl hx
        · exact .inr (List.mem_cons_of_mem _ hx)
      · rcases List.mem_cons.1 hx with hx | hx
        · exact .inr (by rw [hx]; exact List.mem_cons_self)
        · exact (ih x hx).imp_right (List.mem_cons_of_mem _)
  induction l with
  | nil => simp [iset]
  | cons e l ih =>
    obtain ⟨a, b⟩ := e
    simp only [List.map_cons, List.nodup_cons] at h
    simp only [iset]
    split
    · rename_i hk
      subst hk
      simpa using h
    · rename_i hk
      simp only [List.map_cons, List.nodup_cons]
      refine ⟨fun hx => ?_, ih h.2⟩
      rcases key l a hx with hx | hx
      · exact hk hx.symm
      · exact h.1 hx

/-- no name twice -/
def Keys {V P : Type} (n : Node V P) : Prop := (n.vars.map Prod.fst).Nodup ∧ (n.procs.map Prod.fst).Nodup

variable {V P L : Type} {w : View V P L} {t : Tree V P}

theorem modify_all {A : Type} {Q : A → Prop} {f : A → A} (hf : ∀ a, Q a → Q (f a)) {l : List A} (h : ∀ a ∈ l, Q a) (i : Nat) :
    ∀ a ∈ l.modify i f, Q a := by
  induction l generalizing i with
  | nil => simp
  | cons x l ih =>
    intro a ha
    cases i with
    | zero =>
      simp only [List.modify_zero_cons] at ha
      rcases List.mem_cons.1 ha with rfl | ha
      · exact hf _ (h x List.mem_cons_self)
      · exact h a (List.mem_cons_of_mem _ ha)
    | succ i =>
      simp only [List.modify_succ_cons] at ha
      rcases List.mem_cons.1 ha with rfl | ha
      · exact h _ List.mem_cons_self
      · exact ih (fun a ha => h a (List.mem_cons_of_mem _ ha)) i a ha

theorem insertVar_keys {name : Ident} {v : V} {d : Option Nat} (n : Node V P) (h : Keys n) : Keys (insertVar name v d n) := by
  unfold insertVar
  split <;> exact ⟨iset_keys h.1, h.2⟩

theorem step_keys {b b' : Builder V P} {o : Op V P} (hs : b.step o = some b') (h : ∀ n ∈ b.inner.graph, Keys n) :
    ∀ n ∈ b'.inner.graph, Keys n := by
  cases o with
  | subtype p c =>
    simp only [Builder.step, Builder.subtypeOrAdd, Option.map_eq_some_iff] at hs
    obtain ⟨⟨x, k⟩, hx, rfl⟩ := hs
    split at hx
    · cases hx
    · split at hx
      · cases hx; exact h
      · cases hx
        refine modify_all (Q := Keys) ?_ ?_ p
        · intro a ha; exact ha
        intro a ha
        rcases List.mem_append.1 ha with ha | ha
        · exact h a ha
        · rw [List.mem_singleton] at ha
          subst ha
          exact ⟨by simp, by simp⟩
  | declareVar ty n v =>
    simp only [Builder.step, Builder.declareVar] at hs
    split at hs
    · cases hs
      exact modify_all insertVar_keys h ty
    · cases hs
  | overrideVar ty n v =>
    simp only [Builder.step, Builder.overrideVar] at hs
    split at hs
    · cases hs
      exact modify_all insertVar_keys h ty
    · cases hs
  | registerVar ty n v d =>
    simp only [Builder.step, Builder.registerVar] at hs
    split at hs
    · cases hs
    · split at hs
      · cases hs; exact h
      · split at hs <;> cases hs <;> refine modify_all (Q := Keys) ?_ h ty <;> intro a ha <;> exact ⟨iset_keys ha.1, ha.2⟩
  | registerProc ty n d v =>
    simp only [Builder.step, Builder.registerProc] at hs
    split at hs
    · cases hs
    · cases hs
      refine modify_all (Q := Keys) ?_ h ty
      intro a ha
      exact ⟨ha.1, iset_keys ha.2⟩

theorem run_keys {b b' : Builder V P} {ops : List (Op V P)} (hr : b.run ops = some b') (h : ∀ n ∈ b.inner.graph, Keys n) :
    ∀ n ∈ b'.inner.graph, Keys n := by
  induction ops generalizing b with
  | nil => cases hr; exact h
  | cons o ops ih =>
    simp only [Builder.run, Option.bind_eq_some_iff] at hr
    obtain ⟨c, hc, hr⟩ := hr
    exact ih hr (step_keys hc h)

variable {b : Builder V P} {eval : List Char → TypeVar V → ParentVal}

theorem finished_node_keys (h : Finished b eval t) {i : Nat} {n : Node V P} (hi : t.graph[i]? = some n) : Keys n := by
  obtain ⟨m, hm, rfl⟩ := h.node_inv hi
  obtain ⟨ops, _, hr⟩ := h.1
  have := run_keys hr (by intro n hn; simp [Builder.init] at hn; subst hn; exact ⟨by simp, by simp⟩) m (List.mem_of_getElem? hm)
  split <;> exact this

/-! ## What an entry says -/

/-- the names of constructors -/
def IsConstructor (x : Ident) : Prop := x = "New".toList ∨ x = "init".toList ∨ x = "Initialize".toList

instance (x : Ident) : Decidable (IsConstructor x) := by unfold IsConstructor; infer_instance

theorem isConstructorName_iff (x : Ident) : isConstructorName x = true ↔ IsConstructor x := by
  unfold isConstructorName IsConstructor
  rw [Bool.or_eq_true, Bool.or_eq_true, decide_eq_true_iff, decide_eq_true_iff, decide_eq_true_iff, or_assoc]

/-- What the explorer says of a proc: one entry for each of its definitions in this type, in order; only the first says whether
it is a verb, and only if it is declared here. -/
def Says (w : View V P L) (n : Node V P) (x : Ident) (tp : TypeProc P) (es : List (ProcE L)) : Prop :=
  es.map ProcE.location = tp.value.map (w.procLoc n x) ∧
  (∀ e ∈ es, e.name = x ∧
    e.kind = (if n.path = [] then .function
      else if IsConstructor x then .constructor else .method)) ∧
  (∀ e ∈ es.head?, e.isVerb = tp.decl.map w.isVerb) ∧ ∀ e ∈ es.tail, e.isVerb = none

theorem procValues_says {n : Node V P} {x : Ident} (ps : List P) (v : Option Bool) :
    (procValues w n x v ps).map ProcE.location = ps.map (w.procLoc n x) ∧
    (∀ e ∈ procValues w n x v ps, e.name = x ∧
      e.kind = (if n.path = [] then .function
        else if IsConstructor x then .constructor else .method)) ∧
    (∀ e ∈ (procValues w n x v ps).head?, e.isVerb = v) ∧ ∀ e ∈ (procValues w n x v ps).tail, e.isVerb = none := by
  induction ps generalizing v with
  | nil => simp [procValues]
  | cons p ps ih =>
    obtain ⟨h1, h2, h3, h4⟩ := ih none
    refine ⟨by simp [procValues, h1], ?_, by intro e he; simp [procValues] at he; subst he; rfl, ?_⟩
    · intro e he
      rcases List.mem_cons.1 he with rfl | he
      · refine ⟨rfl, ?_⟩
        simp only [isConstructorName_iff, List.isEmpty_iff]
      · exact h2 e he
    · intro e he
      simp only [procValues, List.tail_cons] at he
      cases hs : procValues w n x none ps with
      | nil => rw [hs] at he; cases he
      | cons y ys =>
        rw [hs] at he h3 h4
        rcases List.mem_cons.1 he with rfl | he
        · exact h3 _ rfl
        · exact h4 e he

theorem procEntries_filter {n : Node V P} (x : Ident) (ps : List (Ident × TypeProc P)) (hk : (ps.map Prod.fst).Nodup) :
    (ps.flatMap fun p => procValues w n p.1 (p.2.decl.map w.isVerb) p.2.value).filter (fun e => e.name = x) =
      match mget x ps with
      | some tp => procValues w n x (tp.decl.map w.isVerb) tp.value
      | none => [] := by
  have none_of : ∀ (y : Ident) (v : Option Bool) (l : List P), y ≠ x →
      (procValues w n y v l).filter (fun e => decide (e.name = x)) = [] := by
    intro y v l hy
    rw [List.filter_eq_nil_iff]
    intro e he
    rw [((procValues_says l v).2.1 e he).1]
    simpa using hy
  induction ps with
  | nil => rfl
  | cons p ps ih =>
    obtain ⟨y, tp⟩ := p
    simp only [List.map_cons, List.nodup_cons] at hk
    rw [List.flatMap_cons, List.filter_append, ih hk.2]
    simp only [mget]
    by_cases hxy : x = y
    · subst hxy
      have hn : mget x ps = none := by
        cases hm : mget x ps with
        | none => rfl
        | some q => exact absurd (List.mem_map.2 ⟨_, mget_mem hm, rfl⟩) hk.1
      rw [if_pos rfl, hn]
      simp only [List.append_nil]
      rw [List.filter_eq_self]
      intro e he
      simpa using ((procValues_says _ _).2.1 e he).1
    · rw [if_neg hxy, none_of _ _ _ (fun h => hxy h.symm)]
      rfl

/-- **C105** The vars of an entry are the vars the type itself sets, each once, in the order of their names; a constant is one
that is declared here as `const`.  The procs are likewise in the order of their names, and those of one name are the definitions
of that proc in this type. -/
theorem members_exact (h : Finished b eval t) (w : View V P L) {i : Nat} {n : Node V P} (hi : t.graph[i]? = some n) :
    SortedByName VarE.name (fullHead w n).vars ∧ (((fullHead w n).vars.map VarE.name).Nodup) ∧
    (∀ v : VarE L, v ∈ (fullHead w n).vars ↔ ∃ tv, mget v.name n.vars = some tv ∧ v.location = w.varLoc n v.name tv ∧
      v.isDeclaration = tv.decl.isSome ∧ v.kind = (if ∃ d, tv.decl = some d ∧ w.isConst d = true then .constant else .field)) ∧
    SortedByName ProcE.name (fullHead w n).procs ∧
    ∀ x, match mget x n.procs with
      | some tp => Says w n x tp ((fullHead w n).procs.filter fun e => e.name = x)
      | none => ∀ e ∈ (fullHead w n).procs, e.name ≠ x := by
  obtain ⟨k1, k2⟩ := finished_node_keys h hi
  refine ⟨sort_sorted _ _, ?_, ?_, sort_sorted _ _, ?_⟩
  · refine ((List.mergeSort_perm _ _).map VarE.name).nodup_iff.2 ?_
    rw [List.map_map]
    exact k1
  · intro v
    rw [show (fullHead w n).vars = (n.vars.map (varEntry w n)).mergeSort (byName VarE.name) from rfl,
      (List.mergeSort_perm _ _).mem_iff, List.mem_map]
    have hkind : ∀ d : Option Nat, (if (match d with | some d => w.isConst d | none => false) = true then SymKind.constant else .field)
        = if ∃ k, d = some k ∧ w.isConst k = true then SymKind.constant else .field := by
      intro d
      cases d <;> simp
    constructor
    · rintro ⟨⟨x, tv⟩, hm, rfl⟩
      refine ⟨tv, mget_of_mem k1 hm, rfl, rfl, ?_⟩
      exact hkind tv.decl
    · rintro ⟨tv, h1, h2, h3, h4⟩
      refine ⟨(v.name, tv), mget_mem h1, ?_⟩
      rw [← hkind tv.decl] at h4
      obtain ⟨a1, a2, a3, a4⟩ := v
      simp only at h2 h3 h4
      subst h2 h3 h4
      rfl
  · intro x
    have hf := procEntries_filter (w := w) (n := n) x n.procs k2
    have hs : (fullHead w n).procs.filter (fun e => decide (e.name = x)) =
        (procEntries w n).filter fun e => decide (e.name = x) := sort_filter ProcE.name (procEntries w n) x
    unfold procEntries at hs
    rw [hf] at hs
    cases hm : mget x n.procs with
    | some tp =>
      rw [hm] at hs
      simp only at hs ⊢
      rw [hs]
      exact procValues_says _ _
    | none =>
      rw [hm] at hs
      simp only at hs ⊢
      intro e he hx
      have := List.filter_eq_nil_iff.1 hs e he
      simp [hx] at this

/-- **C105** A query is answered for every path of a type and for no other, with the type and a stub for each of its children, in
the order of their names; what a stub says of its type is what a query for that type says, and the number of vars and of children
it promises is the number that query gives. -/
theorem query_exact (h : Finished b eval t) (w : View V P L) (path : List Char) :
    (query w t path = some .error ↔ ∀ n ∈ t.graph, n.path ≠ path) ∧
    (∀ n ∈ t.graph, n.path = path → ∃ cs : List (Entry L), query w t path = some (.entry (.mk (fullHead w n) cs)) ∧
      cs.length = (fullHead w n).nChildren ∧ (fullHead w n).vars.length = (fullHead w n).nVars ∧
      SortedByName (fun e => e.head.name) cs ∧ (cs.map fun e => e.head.name).Nodup ∧
      (∀ c ∈ cs, c.children = [] ∧ c.head.vars = [] ∧ c.head.procs = [] ∧ ∃ m ∈ t.graph, m.path = path ++ '/' :: c.head.name ∧
        c.head = { fullHead w m with vars := [], procs := [] }) ∧
      (∀ m ∈ t.graph, ∀ x, '/' ∉ x → m.path = path ++ '/' :: x → ∃ c ∈ cs, c.head.name = x)) := by
  have hsh := h.shape
  constructor
  · unfold query
    cases hf : t.find path with
    | none =>
      simp only [true_iff]
      intro n hn e
      obtain ⟨i, hi⟩ := List.mem_iff_getElem?.1 hn
      rw [(find_shape hsh path i).2 ⟨n, hi, e⟩] at hf
      cases hf
    | some i =>
      obtain ⟨n, hi, e⟩ := (find_shape hsh path i).1 hf
      constructor
      · intro hq
        simp only [Option.map_eq_some_iff] at hq
        obtain ⟨_, _, hq⟩ := hq
        cases hq
      · intro hall
        exact absurd e (hall n (List.mem_of_getElem? hi))
  · rintro n hn rfl
    obtain ⟨i, hi⟩ := List.mem_iff_getElem?.1 hn
    have hf := (find_shape hsh n.path i).2 ⟨n, hi, rfl⟩
    have key : ∀ c ∈ t.kids i, ∃ m : Node V P, t.graph[c]? = some m ∧ m.path = n.path ++ '/' :: m.name ∧ stub w t c = some (.mk (stubHead w m) []) := by
      intro c hc
      obtain ⟨m, hm⟩ := kid_valid hsh hc
      exact ⟨m, hm, (kid_path hsh hi hc hm).2, by unfold stub; rw [hm]⟩
    have : Inhabited (Node V P) := ⟨n⟩
    choose! M hM hp hs using key
    have hpl : placeholders w t i = some (.mk (fullHead w n) (sortChildren ((t.kids i).map fun c => .mk (stubHead w (M c)) []))) := by
      unfold placeholders
      rw [hi]
      simp only
      rw [kids_eq hi, mapM_total hs]
      rfl
    refine ⟨sortChildren ((t.kids i).map fun c => .mk (stubHead w (M c)) []), by unfold query; rw [hf]; simp only; rw [hpl]; rfl, ?_, ?_,
      sort_sorted _ _, ?_, ?_, ?_⟩
    · unfold sortChildren
      rw [List.length_mergeSort, List.length_map, ← kids_eq hi, List.length_map]
      rfl
    · show ((n.vars.map _).mergeSort _).length = n.vars.length
      rw [List.length_mergeSort, List.length_map]
    · refine ((List.mergeSort_perm _ _).map _).nodup_iff.2 ?_
      rw [List.map_map]
      refine List.Nodup.map_on ?_ (kids_nodup hsh i)
      intro c hc d hd e
      have e : (M c).name = (M d).name := e
      refine hsh.uniq (hM c hc) (hM d hd) ?_
      rw [hp c hc, hp d hd, e]
    · intro e he
      unfold sortChildren at he
      rw [(List.mergeSort_perm _ _).mem_iff, List.mem_map] at he
      obtain ⟨c, hc, rfl⟩ := he
      exact ⟨rfl, rfl, rfl, M c, List.mem_of_getElem? (hM c hc), hp c hc, rfl⟩
    · intro m hm x hx e
      obtain ⟨j, hj⟩ := List.mem_iff_getElem?.1 hm
      have hc := (child_shape hsh hi x hx j).2 ⟨m, hj, e⟩
      have hk : j ∈ t.kids i := by
        unfold Tree.child at hc
        rw [hi] at hc
        rw [← kids_eq hi]
        exact List.mem_map.2 ⟨_, mget_mem hc, rfl⟩
      refine ⟨.mk (stubHead w (M j)) [], ?_, ?_⟩
      · unfold sortChildren
        rw [(List.mergeSort_perm _ _).mem_iff]
        exact List.mem_map.2 ⟨j, hk, rfl⟩
      · have e1 := hM j hk
        rw [hj] at e1; cases e1
        have e2 := hp j hk
        rw [e] at e2
        have := List.append_cancel_left e2
        cases this
        rfl

/-- **C105** A client is told of a change if it asks again for what it shows, and otherwise is sent the tree if it can show one. -/
theorem update_sends (h : Finished b eval t) (w : View V P L) (caps : Caps) {fuel : Nat} (hf : t.graph.length ≤ fuel) :
    (caps.objectTree2 = true → update w t caps fuel = some (some .changed)) ∧
    (caps.objectTree2 = false → caps.objectTree = true → ∃ e, update w t caps fuel = some (some (.tree e)) ∧
      (e.all []).Perm (t.graph.map fun n => (n.path, fullHead w n))) ∧
    (caps.objectTree2 = false → caps.objectTree = false → update w t caps fuel = some none) := by
  obtain ⟨a, c⟩ := caps
  refine ⟨?_, ?_, ?_⟩
  · rintro h; simp only at h; subst h; rfl
  · rintro h1 h2; simp only at h1 h2; subst h1 h2
    obtain ⟨e, he⟩ := lazy_is_eager h w
    obtain ⟨h1, h2⟩ := he fuel hf
    exact ⟨e, h2, tree_complete h w h1 hf⟩
  · rintro h1 h2; simp only at h1 h2; subst h1 h2; rfl

/-! ## A case -/

namespace Case

def view : View (List Char) Nat Nat := ⟨fun _ => none, fun _ _ _ => some 1, fun _ _ p => some p, fun _ => true, fun _ => false⟩

def item : Node (List Char) Nat := (Demo.tree.graph[5]?).getD ⟨[], 0, [], [], none, none, 0, []⟩
def atom : Node (List Char) Nat := (Demo.tree.graph[2]?).getD ⟨[], 0, [], [], none, none, 0, []⟩

/-- the tree of the example is a finished one -/
theorem ok : Finished Demo.builder Demo.demoEval Demo.tree := Demo.finished

-- an overridden var is shown as a field although its declaration is constant
example : (fullHead view item).vars = [⟨"name".toList, .field, some 1, false⟩] := by
  rw [show (fullHead view item).vars = (item.vars.map (varEntry view item)).mergeSort _ from rfl,
    show item.vars.map (varEntry view item) = [⟨"name".toList, .field, some 1, false⟩] by decide +kernel]
  exact List.mergeSort_singleton _
example : (atom.vars.map (varEntry view atom)) = [⟨"name".toList, .constant, some 1, true⟩] := by decide +kernel
-- a proc defined twice counts once but is shown twice
example : procEntries view item = [⟨"hit".toList, .method, some 200, some false⟩, ⟨"hit".toList, .method, some 100, none⟩] := by decide +kernel
example : (fullHead view item).nProcs = 1 ∧ (procEntries view item).length = 2 := by decide +kernel
example : (query view Demo.tree "/obj/axe".toList).isSome = true ∧ Demo.tree.find "/obj/axe".toList = none := by decide +kernel
example : Demo.tree.find "/obj/item".toList = some 5 ∧ item.path = "/obj/item".toList ∧ item.children.length = 1 := by decide +kernel

end Case

end Verif.Explorer
