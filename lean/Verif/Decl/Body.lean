import Verif.Decl.Props

/-!
# Bodies of procs do not matter for declarations
-/

namespace Verif.Decl

open Verif.Objtree (Ident Builder mget iset)

variable {E C : Type}

/-- without the code of a body -/
def ProcVal.strip (p : ProcVal E C) : ProcVal E C := { p with code := none }

def stripProc (p : Objtree.TypeProc (ProcVal E C)) : Objtree.TypeProc (ProcVal E C) :=
  { p with value := p.value.map ProcVal.strip }

def stripNode (n : Nd E C) : Nd E C := { n with procs := n.procs.map fun x => (x.1, stripProc x.2) }

/-- a tree without the code of bodies; everything else stays, also the tokens of bodies -/
def Env.strip (v : Env E C) : Env E C :=
  { v with
    tree := { v.tree with inner := { v.tree.inner with graph := v.tree.inner.graph.map stripNode } } }

def Out.strip : Out E C → Out E C
  | .ok v ts ds => .ok v.strip ts ds
  | .fail v ds => .fail v.strip ds
  | o => o

theorem map_modify {A : Type} (l : List A) (i : Nat) (f g h : A → A) (hfg : ∀ a, g (f a) = h (g a)) :
    (l.modify i f).map g = (l.map g).modify i h := by
  apply List.ext_getElem?
  intro k
  rw [List.getElem?_map, List.getElem?_modify, List.getElem?_modify, List.getElem?_map]
  cases l[k]? with
  | none => simp
  | some a =>
    by_cases hk : i = k
    · simp [hk, hfg]
    · simp [hk]

theorem subtype_strip (v : Env E C) (i : Nat) (c : Ident) :
    v.strip.subtype i c = (v.subtype i c).map fun r => (r.1.strip, r.2) := by
  unfold Env.subtype Builder.subtypeOrAdd Env.strip
  simp only [List.getElem?_map]
  cases v.tree.inner.graph[i]? with
  | none => rfl
  | some n =>
    simp only [Option.map_some]
    have : (stripNode n).children = n.children := rfl
    rw [this]
    cases mget c n.children with
    | some t => rfl
    | none =>
      simp only [List.length_map, Option.map_some, Option.some.injEq, Prod.mk.injEq, and_true]
      congr 3
      refine Eq.trans ?_ (map_modify _ i
        (fun q : Nd E C => { q with children := Objtree.bset c v.tree.inner.graph.length q.children }) stripNode
        (fun q : Nd E C => { q with children := Objtree.bset c v.tree.inner.graph.length q.children })
        (fun a => rfl)).symm
      rw [List.map_append]
      rfl

theorem insertVar_strip (n : Ident) (x : VarVal E) (d : Option Nat) (t : Nd E C) :
    stripNode (Objtree.insertVar n x d t) = Objtree.insertVar n x d (stripNode t) := by
  unfold Objtree.insertVar
  have : (stripNode t).vars = t.vars := rfl
  rw [this]
  cases mget n t.vars <;> rfl

theorem declare_strip (v : Env E C) (i : Nat) (n : Ident) (ty : VarTy) (init : Option (Init E)) :
    v.strip.declare i n ty init = (v.declare i n ty init).map Env.strip := by
  unfold Env.declare Builder.declareVar Env.strip
  simp only [List.length_map]
  split
  · rename_i h
    split at h
    · cases h
    · rename_i hi
      rw [if_neg hi]
      rfl
  · rename_i t h
    split at h
    · rename_i hi
      cases h
      rw [if_pos hi]
      simp only [Option.map_some, Option.some.injEq]
      congr 2
      unfold Objtree.Tree.modify
      congr 1
      exact (map_modify _ i _ stripNode _ (fun a => insertVar_strip n _ _ a)).symm
    · cases h

theorem override_strip (v : Env E C) (i : Nat) (n : Ident) (e : E) :
    v.strip.override i n e = (v.override i n e).map Env.strip := by
  unfold Env.override Builder.overrideVar Env.strip
  simp only [List.length_map]
  split
  · rename_i h
    split at h
    · cases h
    · rename_i hi
      rw [if_neg hi]
      rfl
  · rename_i t h
    split at h
    · rename_i hi
      cases h
      rw [if_pos hi]
      simp only [Option.map_some, Option.some.injEq]
      congr 2
      unfold Objtree.Tree.modify
      congr 1
      exact (map_modify _ i _ stripNode _ (fun a => insertVar_strip n _ _ a)).symm
    · cases h

theorem mget_map {W W' : Type} (g : W → W') (n : Ident) (l : List (Ident × W)) :
    mget n (l.map fun x => (x.1, g x.2)) = (mget n l).map g := by
  induction l with
  | nil => rfl
  | cons x l ih =>
    obtain ⟨k, w⟩ := x
    simp only [List.map_cons, mget]
    split
    · rfl
    · exact ih

theorem iset_map {W W' : Type} (g : W → W') (n : Ident) (w : W) (l : List (Ident × W)) :
    (iset n w l).map (fun x => (x.1, g x.2)) = iset n (g w) (l.map fun x => (x.1, g x.2)) := by
  induction l with
  | nil => rfl
  | cons x l ih =>
    obtain ⟨k, w'⟩ := x
    simp only [List.map_cons, iset]
    split
    · rfl
    · rw [List.map_cons, ih]

theorem addProcValue_strip (tp : Objtree.TypeProc (ProcVal E C)) (b : Bool) (id : Nat) (p : ProcVal E C) :
    stripProc (Objtree.addProcValue tp b id p) = Objtree.addProcValue (stripProc tp) b id p.strip := by
  obtain ⟨value, decl⟩ := tp
  cases value <;> cases b <;> cases decl <;> simp [stripProc, Objtree.addProcValue]

theorem proc_strip (v : Env E C) (i : Nat) (n : Ident) (decl : Option ProcB) (ret : Option Ret) (p : ProcVal E C) :
    v.strip.proc i n decl ret p.strip = (v.proc i n decl ret p).map Env.strip := by
  unfold Env.proc Builder.registerProc Env.strip
  simp only [List.getElem?_map]
  cases v.tree.inner.graph[i]? with
  | none => rfl
  | some t =>
    simp only [Option.map_some]
    have htp : ((mget n (stripNode t).procs).getD ⟨[], none⟩) = stripProc ((mget n t.procs).getD ⟨[], none⟩) := by
      unfold stripNode
      simp only
      rw [mget_map]
      cases mget n t.procs <;> rfl
    rw [htp]
    generalize (mget n t.procs).getD ⟨[], none⟩ = tp
    have hd : (stripProc tp).decl = tp.decl := rfl
    simp only [hd, Option.some.injEq]
    congr 2
    unfold Objtree.Tree.modify
    congr 1
    refine (map_modify _ i _ stripNode _ (fun a => ?_)).symm
    simp only [stripNode, iset_map, addProcValue_strip]

/-- the parsers, with nothing made of bodies -/
def Parsers.bodyless (X : Parsers E C) : Parsers E C := { X with block := fun _ => none }

theorem step_strip (v : Env E C) (pos : Pos) (n : Ident) :
    step v.strip pos n = (step v pos n).map fun r => (r.1.strip, r.2) := by
  unfold step
  rw [subtype_strip]
  split
  · rfl
  · cases pos.vt with
    | some vt =>
      simp only
      cases VarFlags.fromName n <;> rfl
    | none =>
      simp only
      cases ProcKind.fromName n with
      | some k => rfl
      | none =>
        simp only
        cases pos.pb with
        | some b =>
          simp only
          split <;> rfl
        | none =>
          simp only
          cases v.subtype pos.cur n <;> rfl

theorem steps_strip (ns : List Ident) : ∀ (v : Env E C) (pos : Pos),
    steps v.strip pos ns = (steps v pos ns).map fun r => (r.1.strip, r.2) := by
  induction ns with
  | nil => exact fun _ _ => rfl
  | cons n ns ih =>
    intro v pos
    rw [steps, steps, step_strip]
    cases step v pos n with
    | none => rfl
    | some r =>
      obtain ⟨v1, pos1, ds⟩ := r
      simp only [Option.map_some, ih]
      cases steps v1 pos1 ns <;> rfl

def Head.strip : Head E C → Head E C
  | .fail v ds => .fail v.strip ds
  | .at v pos last suf ts ds => .at v.strip pos last suf ts ds
  | h => h

theorem suffixPart_bodyless (X : Parsers E C) (ts : List Tok) : suffixPart X.bodyless ts = suffixPart X ts := rfl

theorem varSuffix_bodyless (X : Parsers E C) (k : Nat) : ∀ (ts : List Tok), ts.length ≤ k →
    varSuffix X.bodyless ts = varSuffix X ts := by
  induction k with
  | zero =>
    intro ts h
    have : ts = [] := by cases ts <;> simp_all
    subst this
    simp [varSuffix]
  | succ k ih =>
    intro ts h
    rcases ts with - | ⟨t, rest⟩
    · simp [varSuffix]
    · by_cases ht : t = .lbracket
      · subst ht
        rw [varSuffix.eq_def, varSuffix.eq_def]
        simp only [suffixPart_bodyless]
        split
        · rfl
        · rename_i e rest' hs
          have := suffixPart_lt hs
          simp only [List.length_cons] at h
          rw [ih rest' (by omega)]
      · rw [varSuffix.eq_def, varSuffix.eq_def]
        split
        · rename_i hx
          cases hx
          exact absurd rfl ht
        · rfl

theorem entryHead_strip (X : Parsers E C) (v : Env E C) (pos : Pos) (ts : List Tok) :
    entryHead X.bodyless v.strip pos ts = (entryHead X v pos ts).strip := by
  unfold entryHead
  cases treePath ts with
  | none => rfl
  | some r =>
    obtain ⟨abs, path, r, ds⟩ := r
    simp only
    cases path.getLast? with
    | none => rfl
    | some last =>
      simp only [steps_strip]
      cases steps v (start pos abs).1 path.dropLast with
      | none => rfl
      | some x =>
        obtain ⟨v1, pos1, ds1⟩ := x
        simp only [Option.map_some]
        cases operatorName last r with
        | none => rfl
        | some y =>
          simp only [suffixIf]
          rw [varSuffix_bodyless X _ _ (Nat.le_refl _)]
          cases (if pos1.vt.isSome = true then varSuffix X y.2 else some ([], y.2)) with
          | none => rfl
          | some z => rfl

theorem inputSpec_bodyless (X : Parsers E C) (ts : List Tok) : inputSpec X.bodyless ts = inputSpec X ts := rfl

theorem procParam_bodyless (X : Parsers E C) (ts : List Tok) : procParam X.bodyless ts = procParam X ts := by
  rw [procParam.eq_def, procParam.eq_def]
  split
  · rfl
  · split
    · rfl
    · rw [varSuffix_bodyless X _ _ (Nat.le_refl _)]
      rfl

theorem procParams_bodyless (X : Parsers E C) (k : Nat) : ∀ (legal : Bool) (ts : List Tok), ts.length ≤ k →
    procParams X.bodyless legal ts = procParams X legal ts := by
  induction k with
  | zero =>
    intro legal ts h
    have : ts = [] := by cases ts <;> simp_all
    subst this
    rw [procParams.eq_def, procParams.eq_def]
    cases legal
    · have h1 : procParam X [] = none := by
        cases hx : procParam X [] with
        | none => rfl
        | some r =>
          obtain ⟨p, r, ds⟩ := r
          have := procParam_lt hx
          simp at this
      simp only [Bool.false_eq_true, if_false]
      split
      · split
        · rfl
        · rename_i hx
          rw [h1] at hx
          cases hx
      · rename_i hx
        rw [procParam_bodyless, h1] at hx
        cases hx
    · rfl
  | succ k ih =>
    intro legal ts h
    rw [procParams.eq_def, procParams.eq_def]
    split
    · rfl
    · rename_i rest
      simp only [List.length_cons] at h
      rw [ih false rest (by omega)]
    · split
      · rfl
      · split
        · rename_i hx
          rw [procParam_bodyless] at hx
          split
          · rfl
          · rename_i hy
            rw [hx] at hy
            cases hy
        · rename_i p r ds hx
          rw [procParam_bodyless] at hx
          have := procParam_lt hx
          simp only [ih true r (by omega)]
          generalize hq : procParams X true r = q
          split
          · split
            · rfl
            · rename_i hy
              rw [hx] at hy
              cases hy
              simp only [hq]
          · split
            · rename_i hy
              rw [hx] at hy
              cases hy
            · rename_i hy
              rw [hx] at hy
              cases hy
              simp only [hq]

theorem procEntry_strip (X : Parsers E C) (v : Env E C) (pos : Pos) (last : Ident) (ts : List Tok) (ds : List Diag) :
    procEntry X.bodyless v.strip pos last ts ds = (procEntry X v pos last ts ds).strip := by
  unfold procEntry procRest
  rw [procParams_bodyless X _ _ _ (Nat.le_refl _)]
  cases procParams X false ts with
  | none => rfl
  | some r =>
    obtain ⟨params, r, ds1⟩ := r
    simp only
    cases returnType pos.pb r with
    | none => rfl
    | some x =>
      obtain ⟨ret, r', ds2⟩ := x
      simp only
      cases procBody r' with
      | none => rfl
      | some y =>
        obtain ⟨body, r''⟩ := y
        simp only
        have : v.strip.proc pos.cur last pos.pb ret ⟨params, body, X.bodyless.block body⟩
            = (v.proc pos.cur last pos.pb ret ⟨params, body, X.block body⟩).map Env.strip :=
          proc_strip v pos.cur last pos.pb ret ⟨params, body, X.block body⟩
        rw [this]
        cases v.proc pos.cur last pos.pb ret ⟨params, body, X.block body⟩ <;> rfl

theorem assignEntry_strip (X : Parsers E C) (v : Env E C) (pos : Pos) (last : Ident) (suf : List (Option E))
    (ts : List Tok) (ds : List Diag) :
    assignEntry X.bodyless v.strip pos last suf ts ds = (assignEntry X v pos last suf ts ds).strip := by
  unfold assignEntry
  simp only [declare_strip, override_strip, inputSpec_bodyless]
  have : X.bodyless.expr ts = X.expr ts := rfl
  rw [this]
  rcases X.expr ts with - | - | ⟨e, r⟩
  · rfl
  · rfl
  · simp only
    rcases inputSpec X r with - | ⟨input, l, r', ds'⟩
    · rfl
    · simp only
      rcases terminator r' with - | r''
      · rfl
      · simp only
        rcases pos.vt with - | vt
        · simp only
          cases v.override pos.cur last e <;> rfl
        · simp only
          cases v.declare pos.cur last { vt.suffix suf with input := input } (some (.expr e)) <;> rfl

theorem bareVar_strip (X : Parsers E C) (v : Env E C) (cur : Nat) (vt : VarTy) (last : Ident) (suf : List (Option E))
    (ts : List Tok) (ds : List Diag) :
    bareVar X.bodyless v.strip cur vt last suf ts ds = (bareVar X v cur vt last suf ts ds).strip := by
  unfold bareVar
  simp only [declare_strip, inputSpec_bodyless]
  rcases inputSpec X ts with - | ⟨input, l, r', ds'⟩
  · rfl
  · simp only
    split
    · rfl
    · split
      · rfl
      · cases v.declare cur last { vt.suffix suf with input := input } (initializer suf) <;> rfl

theorem bareEntry_strip (v : Env E C) (pos : Pos) (last : Ident) (ts : List Tok) (ds : List Diag) :
    bareEntry v.strip pos last ts ds = (bareEntry v pos last ts ds).strip := by
  unfold bareEntry
  rw [subtype_strip]
  split
  · rfl
  · split
    · rfl
    · split
      · rfl
      · cases v.subtype pos.cur last <;> rfl

theorem strip_all (X : Parsers E C) (f : Nat) :
    (∀ pos inner (v : Env E C) ts ds,
      treeEntries X.bodyless f pos inner v.strip ts ds = (treeEntries X f pos inner v ts ds).strip) ∧
    (∀ pos (v : Env E C) ts ds, treeEntry X.bodyless f pos v.strip ts ds = (treeEntry X f pos v ts ds).strip) := by
  induction f with
  | zero => exact ⟨fun _ _ _ _ _ => by simp [treeEntries, Out.strip], fun _ _ _ _ => by simp [treeEntry, Out.strip]⟩
  | succ f ih =>
    obtain ⟨ih1, ih2⟩ := ih
    constructor
    · intro pos inner v ts ds
      rw [treeEntries.eq_def, treeEntries.eq_def]
      simp only
      split
      · split <;> rfl
      · exact ih1 ..
      · rename_i t rest _
        split
        · rfl
        · rw [ih2]
          cases treeEntry X f pos v (t :: rest) ds with
          | ok v' r ds' => exact ih1 ..
          | _ => rfl
    · intro pos v ts ds
      rw [treeEntry.eq_def, treeEntry.eq_def]
      simp only [entryHead_strip]
      cases entryHead X v pos ts with
      | nothing => rfl
      | fail v' ds' => rfl
      | panic => rfl
      | empty r ds' => rfl
      | «at» v' pos' last suf r ds' =>
        simp only [Head.strip]
        split
        · rw [step_strip]
          cases step v' pos' last with
          | none => rfl
          | some x => exact ih1 ..
        · exact assignEntry_strip ..
        · exact procEntry_strip ..
        · split
          · exact bareVar_strip ..
          · exact bareEntry_strip ..

/-- **C66**: what is made of the bodies of procs matters for nothing else.  Two parsers of bodies, also one that fails
on every body, give the same outcome, messages and tree for all tokens, but for the code of the bodies. -/
theorem bodies_do_not_matter (X Y : Parsers E C) (h : X.expr = Y.expr) (v : Env E C) (ts : List Tok) :
    (run X v ts).strip = (run Y v ts).strip := by
  have hXY : X.bodyless = Y.bodyless := by
    obtain ⟨ex, tx, bx⟩ := X
    obtain ⟨ey, ty, bY⟩ := Y
    simp only at h
    subst h
    rfl
  unfold run
  rw [← (strip_all X _).1, ← (strip_all Y _).1, hXY]

/-- **C66**: a tree without the code of bodies has the same types, variables and declarations of procs, and the same
parameters and tokens of bodies -/
theorem strip_see (v : Env E C) : v.strip.see =
    { v.see with procs := fun p n => (v.see.procs p n).map fun x => (x.1.map ProcVal.strip, x.2) } := by
  have hl : ∀ p i, lookup v.strip i p = lookup v i p := by
    intro p
    induction p with
    | nil => exact fun _ => rfl
    | cons c p ih =>
      intro i
      rw [lookup, lookup]
      simp only [Env.strip, List.getElem?_map]
      cases v.tree.inner.graph[i]? with
      | none => rfl
      | some n =>
        simp only [Option.map_some]
        have : (stripNode n).children = n.children := rfl
        rw [this]
        cases mget c n.children with
        | none => rfl
        | some j => exact ih j
  have hg : ∀ i : Nat, v.strip.tree.inner.graph[i]? = (v.tree.inner.graph[i]?).map stripNode := by
    intro i
    exact List.getElem?_map
  simp only [Env.see, World.mk.injEq, hl, hg, true_and]
  refine ⟨?_, ?_⟩
  · funext p n
    cases lookup v 0 p with
    | none => rfl
    | some i =>
      simp only [Option.bind_some]
      cases v.tree.inner.graph[i]? <;> rfl
  · funext p n
    cases lookup v 0 p with
    | none => rfl
    | some i =>
      simp only [Option.bind_some]
      cases v.tree.inner.graph[i]? with
      | none => rfl
      | some t =>
        simp only [Option.map_some, Option.bind_some, stripNode, mget_map]
        cases mget n t.procs <;> rfl

end Verif.Decl
