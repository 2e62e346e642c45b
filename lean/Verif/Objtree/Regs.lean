import Verif.Objtree.Inherit

/-!
# C34: what a type's variables and procs are after any sequence of registrations
-/

namespace Verif.Objtree

variable {V P : Type}

/-- the registrations of a proc on a type: is it a declaration, and the value -/
def procRegs (i : Nat) (name : Ident) (ops : List (Op V P)) : List (Bool × P) :=
  ops.filterMap fun o => match o with
    | .registerProc t n d v => if t = i ∧ n = name then some (d, v) else none
    | _ => none

/-- the registrations of a variable on a type: is it in the code (or a built-in), and the value -/
def varRegs (i : Nat) (name : Ident) (ops : List (Op V P)) : List (Bool × V) :=
  ops.filterMap fun o => match o with
    | .declareVar t n v => if t = i ∧ n = name then some (true, v) else none
    | .overrideVar t n v => if t = i ∧ n = name then some (true, v) else none
    | .registerVar t n v _ => if t = i ∧ n = name then some (false, v) else none
    | _ => none

/-- the values of a proc: the declarations, latest first, then the overrides in order -/
def procOrder (regs : List (Bool × P)) : List P :=
  ((regs.filter (·.1)).map Prod.snd).reverse ++ (regs.filter fun r => !r.1).map Prod.snd

/-- the value of a variable: the last one in the code, else the first built-in -/
def varOrder (regs : List (Bool × V)) : Option V :=
  match ((regs.filter (·.1)).map Prod.snd).getLast? with
  | some v => some v
  | none => regs.head?.map Prod.snd

theorem procOrder_snoc (regs : List (Bool × P)) (d : Bool) (v : P) :
    procOrder (regs ++ [(d, v)]) = if d then v :: procOrder regs else procOrder regs ++ [v] := by
  cases d <;> simp [procOrder]

theorem varOrder_snoc (regs : List (Bool × V)) (d : Bool) (v : V) :
    varOrder (regs ++ [(d, v)]) = if d then some v else (varOrder regs).or (some v) := by
  cases d with
  | true => simp [varOrder]
  | false =>
    simp only [varOrder, List.filter_append, List.filter_cons, List.filter_nil, Bool.false_eq_true, if_false,
      List.append_nil]
    cases regs with
    | nil => rfl
    | cons r rs =>
      simp only [List.cons_append, List.head?_cons, Option.map_some]
      cases List.getLast? (List.map Prod.snd (List.filter (fun x => x.fst) (r :: rs))) <;> rfl

theorem varOrder_none {regs : List (Bool × V)} (h : varOrder regs = none) : regs = [] := by
  unfold varOrder at h
  cases regs with
  | nil => rfl
  | cons r rs =>
    simp only [List.head?_cons, Option.map_some] at h
    split at h <;> cases h

/-- a registration changes the procs and variables of its type as expected, and nothing else -/
def OwnStep (b b' : Builder V P) (o : Op V P) (i : Nat) (name : Ident) : Prop :=
    (∀ (n' : Node V P), b'.inner.graph[i]? = some n' → ∃ vs ps,
      ((∃ n : Node V P, b.inner.graph[i]? = some n ∧ vs = n.vars ∧ ps = n.procs)
        ∨ (b.inner.graph[i]? = none ∧ vs = [] ∧ ps = []))
      ∧ (mget name n'.procs).map TypeProc.value
        = (procRegs i name [o]).foldl (fun acc r => some (if r.1 then r.2 :: acc.getD [] else acc.getD [] ++ [r.2]))
            ((mget name ps).map TypeProc.value)
      ∧ (mget name n'.vars).map TypeVar.value
        = (varRegs i name [o]).foldl (fun acc r => if r.1 then some r.2 else acc.or (some r.2))
            ((mget name vs).map TypeVar.value))
    ∧ (b'.inner.graph[i]? = none → procRegs i name [o] = [] ∧ varRegs i name [o] = [] ∧ b.inner.graph[i]? = none)

theorem step_own {b b' : Builder V P} {o : Op V P} (h : b.step o = some b') (i : Nat) (name : Ident) :
    OwnStep b b' o i name := by
  -- what is left alone
  have hmod : ∀ (k : Nat) (f : Node V P → Node V P), b'.inner.graph = b.inner.graph.modify k f →
      (∃ m, b.inner.graph[k]? = some m) →
      (procRegs i name [o] ≠ [] ∨ varRegs i name [o] ≠ [] → i = k) →
      (∀ n, b.inner.graph[k]? = some n → i = k →
        (mget name (f n).procs).map TypeProc.value
          = (procRegs i name [o]).foldl (fun acc r => some (if r.1 then r.2 :: acc.getD [] else acc.getD [] ++ [r.2]))
            ((mget name n.procs).map TypeProc.value)
        ∧ (mget name (f n).vars).map TypeVar.value
          = (varRegs i name [o]).foldl (fun acc r => if r.1 then some r.2 else acc.or (some r.2))
            ((mget name n.vars).map TypeVar.value)) → OwnStep b b' o i name := by
    intro k f hg hval hregs hf
    unfold OwnStep
    rw [hg]
    constructor
    · intro n' hn'
      rw [List.getElem?_modify] at hn'
      obtain ⟨n, hn, he⟩ := Option.map_eq_some_iff.1 hn'
      refine ⟨n.vars, n.procs, .inl ⟨n, hn, rfl, rfl⟩, ?_⟩
      by_cases hk : k = i
      · simp only [hk, if_true] at he
        rw [← he]
        exact hf n (hk ▸ hn) hk.symm
      · simp only [hk, if_false] at he
        have h1 : procRegs i name [o] = [] := by
          by_contra hc; exact hk (hregs (.inl hc)).symm
        have h2 : varRegs i name [o] = [] := by
          by_contra hc; exact hk (hregs (.inr hc)).symm
        rw [h1, h2, ← he]
        exact ⟨rfl, rfl⟩
    · intro hn
      rw [List.getElem?_modify, Option.map_eq_map, Option.map_eq_none_iff] at hn
      refine ⟨?_, ?_, hn⟩
      · by_contra hc
        obtain ⟨m, hm⟩ := hval
        rw [← hregs (.inl hc), hn] at hm; cases hm
      · by_contra hc
        obtain ⟨m, hm⟩ := hval
        rw [← hregs (.inr hc), hn] at hm; cases hm
  cases o with
  | subtype p c =>
    have e1 : procRegs i name [(.subtype p c : Op V P)] = [] := rfl
    have e2 : varRegs i name [(.subtype p c : Op V P)] = [] := rfl
    unfold OwnStep
    rw [e1, e2]
    unfold Builder.step at h
    obtain ⟨⟨b2, j⟩, h1, rfl⟩ := Option.map_eq_some_iff.1 h
    obtain ⟨q, hq, ⟨_, rfl⟩ | ⟨_, hj, _, hr, hg, _⟩⟩ := subtype_cases h1
    · exact ⟨fun n' hn' => ⟨_, _, .inl ⟨n', hn', rfl, rfl⟩, rfl, rfl⟩, fun hn => ⟨rfl, rfl, hn⟩⟩
    · simp only [hg]
      constructor
      · intro n' hn'
        rw [List.getElem?_modify] at hn'
        obtain ⟨m, hm, he⟩ := Option.map_eq_some_iff.1 hn'
        have hsame : n'.vars = m.vars ∧ n'.procs = m.procs := by
          rw [← he]
          split <;> exact ⟨rfl, rfl⟩
        rcases List.getElem?_eq_some_iff.1 hm with ⟨hlt, hm'⟩
        by_cases hj : i < b.inner.graph.length
        · rw [List.getElem?_append_left hj] at hm
          exact ⟨m.vars, m.procs, .inl ⟨m, hm, rfl, rfl⟩, by rw [hsame.2]; rfl, by rw [hsame.1]; rfl⟩
        · simp at hlt
          have : i = b.inner.graph.length := by omega
          subst this
          rw [List.getElem?_append_right (Nat.le_refl _)] at hm
          simp at hm
          refine ⟨[], [], .inr ⟨by simp, rfl, rfl⟩, ?_, ?_⟩
          · rw [hsame.2, ← hm]; rfl
          · rw [hsame.1, ← hm]; rfl
      · intro hn
        refine ⟨trivial, trivial, ?_⟩
        rw [List.getElem?_modify, Option.map_eq_map, Option.map_eq_none_iff, List.getElem?_eq_none_iff] at hn
        rw [List.getElem?_eq_none_iff]
        simp at hn
        omega
  | declareVar ty nm v =>
    simp only [Builder.step, Builder.declareVar] at h
    split at h
    · rename_i hlt
      cases h
      refine hmod ty _ rfl ⟨_, List.getElem?_eq_getElem hlt⟩ ?_ ?_
      · rintro (hc | hc)
        · exact absurd rfl hc
        · by_contra hne
          apply hc
          simp only [varRegs, List.filterMap_cons, List.filterMap_nil]
          rw [if_neg (fun e => hne e.1.symm)]
      · intro n hn hi
        subst hi
        rw [(insertVar_other _ _ _ _).2]
        refine ⟨rfl, ?_⟩
        have hv : (insertVar nm v (some b.next) n).vars = iset nm ⟨v, (insertVar nm v (some b.next) n).vars |> fun _ => some b.next⟩ n.vars := by
          unfold insertVar
          cases mget nm n.vars <;> rfl
        rw [hv, mget_iset]
        by_cases hnm : nm = name
        · subst hnm
          simp [varRegs]
        · rw [if_neg (fun e => hnm e.symm)]
          simp [varRegs, hnm]
    · cases h
  | overrideVar ty nm v =>
    simp only [Builder.step, Builder.overrideVar] at h
    split at h
    · rename_i hlt
      cases h
      refine hmod ty _ rfl ⟨_, List.getElem?_eq_getElem hlt⟩ ?_ ?_
      · rintro (hc | hc)
        · exact absurd rfl hc
        · by_contra hne
          apply hc
          simp only [varRegs, List.filterMap_cons, List.filterMap_nil]
          rw [if_neg (fun e => hne e.1.symm)]
      · intro n hn hi
        subst hi
        rw [(insertVar_other _ _ _ _).2]
        refine ⟨rfl, ?_⟩
        have hv : ∃ d, (insertVar nm v none n).vars = iset nm ⟨v, d⟩ n.vars := by
          unfold insertVar
          cases mget nm n.vars with
          | none => exact ⟨_, rfl⟩
          | some tv => exact ⟨_, rfl⟩
        obtain ⟨d, hv⟩ := hv
        rw [hv, mget_iset]
        by_cases hnm : nm = name
        · subst hnm
          simp [varRegs]
        · rw [if_neg (fun e => hnm e.symm)]
          simp [varRegs, hnm]
    · cases h
  | registerVar ty nm v d =>
    simp only [Builder.step, Builder.registerVar] at h
    split at h
    · cases h
    · rename_i n0 hn0
      -- the two cases that add
      have hadd : ∀ dd : Option Nat, mget nm n0.vars = none →
          b'.inner.graph = b.inner.graph.modify ty (fun n => { n with vars := iset nm ⟨v, dd⟩ n.vars }) → OwnStep b b' (.registerVar ty nm v d) i name := by
        intro dd hnone hg
        refine hmod ty _ hg ⟨n0, hn0⟩ ?_ ?_
        · rintro (hc | hc)
          · exact absurd rfl hc
          · by_contra hne
            apply hc
            simp only [varRegs, List.filterMap_cons, List.filterMap_nil]
            rw [if_neg (fun e => hne e.1.symm)]
        · intro n hn hi
          subst hi
          rw [hn0] at hn
          cases hn
          refine ⟨rfl, ?_⟩
          simp only [mget_iset]
          by_cases hnm : nm = name
          · subst hnm
            simp [varRegs, hnone]
          · rw [if_neg (fun e => hnm e.symm)]
            simp [varRegs, hnm]
      split at h
      · rename_i tv htv
        cases h
        constructor
        · intro n' hn'
          refine ⟨_, _, .inl ⟨n', hn', rfl, rfl⟩, rfl, ?_⟩
          by_cases hc : ty = i ∧ nm = name
          · obtain ⟨rfl, rfl⟩ := hc
            rw [hn0] at hn'
            cases hn'
            simp [varRegs, htv]
          · simp [varRegs, hc]
        · intro hn
          refine ⟨rfl, ?_, hn⟩
          have : ¬ (ty = i ∧ nm = name) := by
            rintro ⟨rfl, _⟩
            rw [hn0] at hn; cases hn
          simp [varRegs, this]
      · rename_i hnone
        split at h
        · cases h; exact hadd _ hnone rfl
        · cases h; exact hadd _ hnone rfl
  | registerProc ty nm d v =>
    simp only [Builder.step, Builder.registerProc] at h
    split at h
    · cases h
    · rename_i n0 hn0
      cases h
      refine hmod ty _ rfl ⟨n0, hn0⟩ ?_ ?_
      · rintro (hc | hc)
        · by_contra hne
          apply hc
          simp only [procRegs, List.filterMap_cons, List.filterMap_nil]
          rw [if_neg (fun e => hne e.1.symm)]
        · exact absurd rfl hc
      · intro n hn hi
        subst hi
        rw [hn0] at hn
        cases hn
        refine ⟨?_, rfl⟩
        simp only [mget_iset]
        by_cases hnm : nm = name
        · subst hnm
          simp only [if_true, Option.map_some, procRegs, List.filterMap_cons, List.filterMap_nil, and_self,
            List.foldl_cons, List.foldl_nil, Option.some.injEq]
          cases hm : mget nm n0.procs with
          | none => cases d <;> simp [addProcValue]
          | some tp =>
            simp only [Option.getD_some, Option.map_some, addProcValue]
            cases d with
            | false => simp
            | true =>
              cases hv : tp.value with
              | nil => simp
              | cons x xs => simp
        · rw [if_neg (fun e => hnm e.symm)]
          simp [procRegs, hnm]

theorem procFold (regs regs' : List (Bool × P)) (acc : Option (List P))
    (hacc : acc = if regs = [] then none else some (procOrder regs)) :
    regs'.foldl (fun acc r => some (if r.1 then r.2 :: acc.getD [] else acc.getD [] ++ [r.2])) acc
      = if regs ++ regs' = [] then none else some (procOrder (regs ++ regs')) := by
  induction regs' generalizing regs acc with
  | nil => simpa using hacc
  | cons r rs ih =>
    obtain ⟨d, v⟩ := r
    rw [List.foldl_cons, ih (regs ++ [(d, v)])]
    · simp
    · rw [hacc]
      have : acc.getD [] = procOrder regs := by
        rw [hacc]
        by_cases h : regs = []
        · simp [h, procOrder]
        · simp [h]
      rw [procOrder_snoc, ← hacc, this]
      simp

theorem varFold (regs regs' : List (Bool × V)) :
    regs'.foldl (fun acc r => if r.1 then some r.2 else acc.or (some r.2)) (varOrder regs) = varOrder (regs ++ regs') := by
  induction regs' generalizing regs with
  | nil => simp
  | cons r rs ih =>
    obtain ⟨d, v⟩ := r
    rw [List.foldl_cons]
    have := ih (regs ++ [(d, v)])
    rw [varOrder_snoc] at this
    simpa using this

/-- **C34**: after any registrations, a type has exactly the procs registered on it, with the values of
declarations (latest first) before those of overrides (in order); and its variables have the last value set in
the code, else the first built-in value. -/
theorem own_exact {b : Builder V P} {ops : List (Op V P)} (h : Builder.init.run ops = some b)
    {i : Nat} {n : Node V P} (hi : b.inner.graph[i]? = some n) (name : Ident) :
    (mget name n.procs).map TypeProc.value
        = (if procRegs i name ops = [] then none else some (procOrder (procRegs i name ops)))
    ∧ (mget name n.vars).map TypeVar.value = varOrder (varRegs i name ops) := by
  -- generalise over what has been done
  have key : ∀ (ops done : List (Op V P)) (b b' : Builder V P), b.run ops = some b' →
      (∀ n : Node V P, b.inner.graph[i]? = some n →
        (mget name n.procs).map TypeProc.value
          = (if procRegs i name done = [] then none else some (procOrder (procRegs i name done)))
        ∧ (mget name n.vars).map TypeVar.value = varOrder (varRegs i name done)) →
      (b.inner.graph[i]? = none → procRegs i name done = [] ∧ varRegs i name done = []) →
      ∀ n : Node V P, b'.inner.graph[i]? = some n →
        (mget name n.procs).map TypeProc.value
          = (if procRegs i name (done ++ ops) = [] then none else some (procOrder (procRegs i name (done ++ ops))))
        ∧ (mget name n.vars).map TypeVar.value = varOrder (varRegs i name (done ++ ops)) := by
    intro ops
    induction ops with
    | nil =>
      intro done b b' hr h1 _ n hn
      cases hr
      rw [List.append_nil]
      exact h1 n hn
    | cons o os ih =>
      intro done b b' hr h1 h2 n hn
      unfold Builder.run at hr
      obtain ⟨b1, hs, hr⟩ := Option.bind_eq_some_iff.1 hr
      obtain ⟨s1, s2⟩ := step_own hs i name
      have e1 : procRegs i name (done ++ [o]) = procRegs i name done ++ procRegs i name [o] := by simp [procRegs]
      have e2 : varRegs i name (done ++ [o]) = varRegs i name done ++ varRegs i name [o] := by simp [varRegs]
      have := ih (done ++ [o]) b1 b' hr ?_ ?_ n hn
      · simpa using this
      · intro n1 hn1
        obtain ⟨vs, ps, hcase, p1, p2⟩ := s1 n1 hn1
        rw [p1, p2, e1, e2]
        rcases hcase with ⟨m, hm, rfl, rfl⟩ | ⟨hnone, rfl, rfl⟩
        · obtain ⟨q1, q2⟩ := h1 m hm
          refine ⟨procFold _ _ _ q1, ?_⟩
          rw [q2]
          exact varFold _ _
        · obtain ⟨q1, q2⟩ := h2 hnone
          refine ⟨procFold _ _ _ (by rw [q1]; rfl), ?_⟩
          rw [q2]
          exact varFold [] _
      · intro hn1
        obtain ⟨q1, q2, q3⟩ := s2 hn1
        obtain ⟨r1, r2⟩ := h2 q3
        rw [e1, e2, q1, q2, r1, r2]
        exact ⟨rfl, rfl⟩
  have := key ops [] Builder.init b h ?_ ?_ n hi
  · simpa using this
  · intro n hn
    have : n = ⟨[], 0, [], [], none, none, 0, []⟩ := by
      cases i with
      | zero => simpa [Builder.init] using hn.symm
      | succ i => simp [Builder.init] at hn
    rw [this]
    exact ⟨rfl, rfl⟩
  · intro _
    exact ⟨rfl, rfl⟩

end Verif.Objtree
