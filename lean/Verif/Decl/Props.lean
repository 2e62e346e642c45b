import Verif.Decl.Read
import Verif.Decl.World

/-!
# What the parser makes of declarations
-/

namespace Verif.Decl

open Verif.Objtree (Ident Builder mget)

variable {E C : Type}

/-! ## Facts and what is seen -/

/-- the subject of a fact -/
def Fact.path : Fact E C → List Ident
  | .type p | .override p _ _ | .var p _ _ _ | .proc p _ _ _ _ => p

theorem tell_type (w : World E C) (f : Fact E C) : (w.tell (.type f.path)).tell f = w.tell f := by
  cases f <;> simp only [World.tell, Fact.path, Bool.or_assoc, Bool.or_self]

theorem add_see {v v' : Env E C} (h : v.Wf) {f : Fact E C} (hf : f.add v = some v') :
    v'.Wf ∧ v'.see = v.see.tell f := by
  have hplace : ∀ p v1 j, place v 0 p = some (v1, j) → v1.Wf ∧ lookup v1 0 p = some j ∧ v1.see = v.see.tell (.type p) :=
    fun p v1 j hp => place_see p h (q := []) rfl hp
  cases f with
  | type p =>
    simp only [Fact.add, Option.map_eq_some_iff] at hf
    obtain ⟨⟨v1, j⟩, hp, rfl⟩ := hf
    obtain ⟨w, _, s⟩ := hplace p v1 j hp
    exact ⟨w, s⟩
  | override p n e =>
    simp only [Fact.add, Option.bind_eq_some_iff] at hf
    obtain ⟨⟨v1, j⟩, hp, hf⟩ := hf
    obtain ⟨w, l, s⟩ := hplace p v1 j hp
    obtain ⟨w', s'⟩ := override_see w l hf
    exact ⟨w', by rw [s', s]; exact tell_type v.see (.override p n e)⟩
  | var p n ty init =>
    simp only [Fact.add, Option.bind_eq_some_iff] at hf
    obtain ⟨⟨v1, j⟩, hp, hf⟩ := hf
    obtain ⟨w, l, s⟩ := hplace p v1 j hp
    obtain ⟨w', s'⟩ := declare_see w l hf
    exact ⟨w', by rw [s', s]; exact tell_type v.see (.var p n ty init)⟩
  | proc p n decl ret value =>
    simp only [Fact.add, Option.bind_eq_some_iff] at hf
    obtain ⟨⟨v1, j⟩, hp, hf⟩ := hf
    obtain ⟨w, l, s⟩ := hplace p v1 j hp
    obtain ⟨w', s'⟩ := proc_see w l hf
    exact ⟨w', by rw [s', s]; exact tell_type v.see (.proc p n decl ret value)⟩

theorem addAll_see (fs : List (Fact E C)) : ∀ {v v' : Env E C}, v.Wf → addAll v fs = some v' →
    v'.Wf ∧ v'.see = fs.foldl World.tell v.see := by
  induction fs with
  | nil =>
    intro v v' h ha
    cases ha
    exact ⟨h, rfl⟩
  | cons f fs ih =>
    intro v v' h ha
    simp only [addAll, Option.bind_eq_some_iff] at ha
    obtain ⟨v1, h1, h2⟩ := ha
    obtain ⟨w1, s1⟩ := add_see h h1
    obtain ⟨w2, s2⟩ := ih w1 h2
    exact ⟨w2, by rw [s2, s1]; rfl⟩

/-! ## Messages do not change what is read -/

/-- add messages in front -/
def Out.pre (ds0 : List Diag) : Out E C → Out E C
  | .ok v ts ds => .ok v ts (ds0 ++ ds)
  | .fail v ds => .fail v (ds0 ++ ds)
  | o => o

theorem assignEntry_pre (X : Parsers E C) (v : Env E C) (pos : Pos) (last : Ident) (suf : List (Option E))
    (ts : List Tok) (ds0 ds : List Diag) :
    assignEntry X v pos last suf ts (ds0 ++ ds) = (assignEntry X v pos last suf ts ds).pre ds0 := by
  unfold assignEntry
  split
  · rfl
  · rfl
  · split
    · rfl
    · split
      · rfl
      · split
        · split
          · rfl
          · simp [Out.pre]
        · split
          · rfl
          · simp [Out.pre]

theorem procEntry_pre (X : Parsers E C) (v : Env E C) (pos : Pos) (last : Ident) (ts : List Tok) (ds0 ds : List Diag) :
    procEntry X v pos last ts (ds0 ++ ds) = (procEntry X v pos last ts ds).pre ds0 := by
  unfold procEntry
  split
  · rfl
  · split
    · rfl
    · simp [Out.pre]

theorem bareVar_pre (X : Parsers E C) (v : Env E C) (cur : Nat) (vt : VarTy) (last : Ident) (suf : List (Option E))
    (ts : List Tok) (ds0 ds : List Diag) :
    bareVar X v cur vt last suf ts (ds0 ++ ds) = (bareVar X v cur vt last suf ts ds).pre ds0 := by
  unfold bareVar
  split
  · rfl
  · split
    · simp [Out.pre]
    · split
      · simp [Out.pre]
      · split
        · rfl
        · simp [Out.pre]

theorem bareEntry_pre (v : Env E C) (pos : Pos) (last : Ident) (ts : List Tok) (ds0 ds : List Diag) :
    bareEntry v pos last ts (ds0 ++ ds) = (bareEntry v pos last ts ds).pre ds0 := by
  unfold bareEntry
  split
  · simp [Out.pre]
  · split
    · simp [Out.pre]
    · split
      · simp [Out.pre]
      · split
        · rfl
        · rfl

theorem pre_all (X : Parsers E C) (ds0 : List Diag) (f : Nat) :
    (∀ pos inner v ts ds, treeEntries X f pos inner v ts (ds0 ++ ds) = (treeEntries X f pos inner v ts ds).pre ds0) ∧
    (∀ pos v ts ds, treeEntry X f pos v ts (ds0 ++ ds) = (treeEntry X f pos v ts ds).pre ds0) := by
  induction f with
  | zero => exact ⟨fun _ _ _ _ _ => by simp [treeEntries, Out.pre], fun _ _ _ _ => by simp [treeEntry, Out.pre]⟩
  | succ f ih =>
    obtain ⟨ih1, ih2⟩ := ih
    constructor
    · intro pos inner v ts ds
      rw [treeEntries.eq_def, treeEntries.eq_def]
      simp only
      split
      · split <;> rfl
      · exact ih1 ..
      · rename_i t rest _
        split
        · rfl
        · rw [ih2]
          cases treeEntry X f pos v (t :: rest) ds with
          | ok v' r ds' => exact ih1 ..
          | _ => rfl
    · intro pos v ts ds
      rw [treeEntry.eq_def, treeEntry.eq_def]
      simp only
      cases entryHead X v pos ts with
      | nothing => rfl
      | fail v' ds' => simp [Out.pre]
      | panic => rfl
      | empty r ds' => simp [Out.pre]
      | «at» v' pos' last suf r ds' =>
        simp only [List.append_assoc]
        split
        · split
          · rfl
          · exact ih1 ..
        · exact assignEntry_pre ..
        · exact procEntry_pre ..
        · split
          · exact bareVar_pre ..
          · exact bareEntry_pre ..

theorem entries_pre (X : Parsers E C) (pos : Pos) (inner : Bool) (v : Env E C) (ts : List Tok) (ds : List Diag) :
    entries X pos inner v ts ds = (entries X pos inner v ts []).pre ds := by
  have := (pre_all X ds (2 * ts.length + 1)).1 pos inner v ts []
  rwa [List.append_nil] at this

/-! ## C63: declarations mean their full paths -/

/-- the empty tree -/
theorem init_wf : (Env.init : Env E C).Wf := by
  have hc : ∀ i c, child (Env.init : Env E C) i c = none := by
    intro i c
    unfold child Env.init Builder.init
    rcases i with - | i
    · rfl
    · rfl
  refine ⟨⟨by simp [Env.init, Builder.init], ?_⟩, ?_, by simp [Env.init], by simp [Env.init], ?_, ?_⟩
  · intro i n hn c j hj
    have : child (Env.init : Env E C) i c = some j := by simp [child, hn, hj]
    rw [hc] at this
    cases this
  · intro i i' c c' j h1
    rw [hc] at h1
    cases h1
  · intro i n hn name x id hx
    rcases i with - | i
    · simp only [Env.init, Builder.init, List.getElem?_cons_zero, Option.some.injEq] at hn
      subst hn
      cases hx
    · simp [Env.init, Builder.init] at hn
  · intro i n hn name x id hx
    rcases i with - | i
    · simp only [Env.init, Builder.init, List.getElem?_cons_zero, Option.some.injEq] at hn
      subst hn
      cases hx
    · simp [Env.init, Builder.init] at hn

/-- the empty tree has only the root -/
theorem init_see : (Env.init : Env E C).see = World.empty := by
  have hl : ∀ p, lookup (Env.init : Env E C) 0 p = if p = [] then some 0 else none := by
    intro p
    cases p <;> rfl
  simp only [Env.see, World.empty, World.mk.injEq]
  refine ⟨?_, ?_, ?_⟩
  · funext p
    rw [hl]
    cases p <;> rfl
  · funext p n
    rw [hl]
    cases p <;> rfl
  · funext p n
    rw [hl]
    cases p <;> rfl

/-- **C63**: for all declarations, in whatever blocks they are written: the parser reads to the end, says exactly the
messages of the specification, and the tree afterwards is what was there before and what the declarations say about
the full paths, one after the other -/
theorem declarations_mean_their_paths {X : Parsers E C} {v : Env E C} (hv : v.Wf) (src : Src E)
    (h : src.Ok X [] false) :
    ∃ v', run X v src.toks = .ok v' [] (src.warns []) ∧ v'.Wf ∧
      v'.see = (src.facts X []).foldl World.tell v.see := by
  obtain ⟨v', ha, _, _, he⟩ := src_ok src (inner := false) [] [] hv.sound (PosOk.root v) h (by simp)
  obtain ⟨w, s⟩ := addAll_see _ hv ha
  refine ⟨v', ?_, w, s⟩
  rw [run_eq]
  rw [List.append_nil] at he
  rw [he, entries_nil]
  rfl

/-- **C63**: the tree itself (with the order and the symbol ids of what is in it) depends on the facts alone -/
theorem same_facts_same_tree {X : Parsers E C} {v : Env E C} (hv : v.Sound) (a b : Src E)
    (ha : a.Ok X [] false) (hb : b.Ok X [] false) (h : a.facts X [] = b.facts X []) :
    ∃ v', run X v a.toks = .ok v' [] (a.warns []) ∧ run X v b.toks = .ok v' [] (b.warns []) := by
  obtain ⟨v1, a1, _, _, e1⟩ := src_ok a (inner := false) [] [] hv (PosOk.root v) ha (by simp)
  obtain ⟨v2, a2, _, _, e2⟩ := src_ok b (inner := false) [] [] hv (PosOk.root v) hb (by simp)
  rw [h, a2] at a1
  cases a1
  refine ⟨v1, ?_, ?_⟩
  · rw [run_eq]
    rw [List.append_nil] at e1
    rw [e1, entries_nil]
    rfl
  · rw [run_eq]
    rw [List.append_nil] at e2
    rw [e2, entries_nil]
    rfl

/-- an entry without the blocks around it: its full path -/
def PathW.lift (ctx : List Ident) (p : PathW) : PathW := { p with abs := true, dirs := dir ctx p }

/-- the type of a block on its own -/
def mention (path : List Ident) (rest : Src E) : Src E :=
  match path.getLast? with
  | none => rest
  | some l => .leaf { abs := true, dirs := path.dropLast, last := l } .type true rest

/-- the same declarations without any block, each with its full path -/
def Src.flat (ctx : List Ident) : Src E → Src E → Src E
  | .nil, tail => tail
  | .semi rest, tail => rest.flat ctx tail
  | .block p body rest, tail =>
    mention (read (full ctx p)).1 (body.flat (full ctx p) (rest.flat ctx tail))
  | .leaf p what _ rest, tail => .leaf (p.lift ctx) what true (rest.flat ctx tail)

/-- there is no block -/
def Src.isFlat : Src E → Bool
  | .nil => true
  | .semi rest => rest.isFlat
  | .block _ _ _ => false
  | .leaf p _ _ rest => p.abs && rest.isFlat

theorem mention_isFlat (path : List Ident) {s : Src E} (h : s.isFlat = true) : (mention path s).isFlat = true := by
  unfold mention
  split
  · exact h
  · simp [Src.isFlat, h]

theorem flat_isFlat (s : Src E) : ∀ (ctx : List Ident) (tail : Src E), tail.isFlat = true →
    (s.flat ctx tail).isFlat = true := by
  induction s with
  | nil => exact fun _ _ h => h
  | semi rest ih => exact fun ctx tail h => ih ctx tail h
  | block p body rest ihb ihr =>
    exact fun ctx tail h => mention_isFlat _ (ihb _ _ (ihr _ _ h))
  | leaf p what ended rest ih =>
    intro ctx tail h
    simp [Src.flat, Src.isFlat, PathW.lift, ih ctx tail h]

theorem dir_lift (ctx : List Ident) (p : PathW) : dir [] (p.lift ctx) = dir ctx p := by
  simp [dir, PathW.lift]

theorem full_lift (ctx : List Ident) (p : PathW) : full [] (p.lift ctx) = full ctx p := by
  rw [full_eq, full_eq, dir_lift]
  rfl

theorem fact_lift (X : Parsers E C) (ctx : List Ident) (p : PathW) (l : Leaf E) :
    l.fact X [] (p.lift ctx) = l.fact X ctx p := by
  have hn : ∀ op, procName (p.lift ctx) op = procName p op := fun op => by cases op <;> rfl
  cases l <;> simp only [Leaf.fact, dir_lift, full_lift, hn] <;> rfl

theorem leafOk_lift {X : Parsers E C} {ctx : List Ident} {p : PathW} {l : Leaf E} (h : l.Ok X ctx p) :
    l.Ok X [] (p.lift ctx) := by
  cases l <;> simp only [Leaf.Ok, dir_lift, full_lift] at h ⊢ <;> exact h

theorem pathOk_nil (p : PathW) : PathOk [] p := fun _ => rfl

theorem mention_ok {X : Parsers E C} {path : List Ident} (hp : ∀ w ∈ path, w ∉ keywords) {rest : Src E}
    (h : rest.Ok X [] false) : (mention path rest).Ok X [] false := by
  unfold mention
  split
  · exact h
  · rename_i l hl
    refine ⟨pathOk_nil _, ⟨?_, fun hx => by cases hx⟩, by simp, h⟩
    have hfull : full [] { abs := true, dirs := path.dropLast, last := l } = path := by
      simp only [full, PathW.names, if_true]
      exact List.dropLast_append_getLast? l (by rw [hl]; rfl)
    rw [hfull, read_type hp]

theorem read_no_keywords (full : List Ident) : ∀ w ∈ (read full).1, w ∉ keywords := by
  intro w hw
  simp only [read] at hw
  have := List.mem_takeWhile_imp hw
  simpa using this

theorem flat_ok {X : Parsers E C} (s : Src E) : ∀ (ctx : List Ident) (inner : Bool) (tail : Src E),
    s.Ok X ctx inner → tail.Ok X [] false → (s.flat ctx tail).Ok X [] false := by
  induction s with
  | nil => exact fun _ _ _ _ h => h
  | semi rest ih => exact fun ctx inner tail h ht => ih ctx inner tail h ht
  | block p body rest ihb ihr =>
    intro ctx inner tail h ht
    obtain ⟨_, _, _, hb, hr⟩ := h
    exact mention_ok (read_no_keywords _) (ihb _ _ _ hb (ihr _ _ _ hr ht))
  | leaf p what ended rest ih =>
    intro ctx inner tail h ht
    obtain ⟨_, h2, _, h4⟩ := h
    exact ⟨pathOk_nil _, leafOk_lift h2, by simp, ih _ _ _ h4 ht⟩

theorem mention_facts {X : Parsers E C} {v v' : Env E C} (path : List Ident) (rest : Src E)
    (h : (place v 0 path).map Prod.fst = some v') :
    addAll v ((mention path rest).facts X []) = addAll v' (rest.facts X []) := by
  unfold mention
  split
  · rename_i hl
    rw [List.getLast?_eq_none_iff] at hl
    subst hl
    cases h
    rfl
  · rename_i l hl
    have hfull : full [] { abs := true, dirs := path.dropLast, last := l } = path := by
      simp only [full, PathW.names, if_true]
      exact List.dropLast_append_getLast? l (by rw [hl]; rfl)
    simp only [Src.facts, Leaf.fact, addAll, Fact.add, hfull, h, Option.bind_some]

theorem flat_facts {X : Parsers E C} (s : Src E) : ∀ (ctx : List Ident) (tail : Src E) (v v' : Env E C),
    addAll v (s.facts X ctx) = some v' →
    addAll v ((s.flat ctx tail).facts X []) = addAll v' (tail.facts X []) := by
  induction s with
  | nil =>
    intro ctx tail v v' h
    cases h
    rfl
  | semi rest ih => exact fun ctx tail v v' h => ih ctx tail v v' h
  | block p body rest ihb ihr =>
    intro ctx tail v v' h
    simp only [Src.facts, List.cons_append, addAll, Option.bind_eq_some_iff] at h
    obtain ⟨v1, h1, h2⟩ := h
    rw [addAll_append, Option.bind_eq_some_iff] at h2
    obtain ⟨v2, h2, h3⟩ := h2
    simp only [Src.flat]
    rw [mention_facts _ _ h1, ihb _ _ _ _ h2, ihr _ _ _ _ h3]
  | leaf p what ended rest ih =>
    intro ctx tail v v' h
    simp only [Src.facts, addAll, Option.bind_eq_some_iff] at h
    obtain ⟨v1, h1, h2⟩ := h
    simp only [Src.flat, Src.facts, addAll, fact_lift, h1, Option.bind_some]
    exact ih _ _ _ _ h2

theorem paramWarns_ne (ps : List (ParamW E)) : ∀ d ∈ ps.flatMap ParamW.warns, d ≠ .nestedAbsolute := by
  intro d hd
  obtain ⟨q, _, hq⟩ := List.mem_flatMap.1 hd
  cases q with
  | ellipsis => cases hq
  | param path _ _ _ =>
    simp only [ParamW.warns, List.mem_append] at hq
    rcases hq with hq | hq <;> split at hq <;> simp at hq <;> subst hq <;> simp

theorem leafWarns_ne (ctx : List Ident) (p : PathW) (l : Leaf E) : ∀ d ∈ l.warns ctx p, d ≠ .nestedAbsolute := by
  intro d hd
  cases l with
  | proc op params ret body =>
    simp only [Leaf.warns, List.mem_append] at hd
    rcases hd with hd | hd
    · exact paramWarns_ne _ _ hd
    · split at hd <;> simp at hd
      subst hd
      simp
  | _ => cases hd

theorem warns_lift (ctx : List Ident) (p : PathW) (l : Leaf E) : l.warns [] (p.lift ctx) = l.warns ctx p := by
  cases l <;> simp only [Leaf.warns, dir_lift]

theorem nested_nil (p : PathW) : nested [] p = [] := by
  simp [nested, read]

theorem nested_filter (ctx : List Ident) (p : PathW) :
    (nested ctx p).filter (fun d => decide (d ≠ .nestedAbsolute)) = [] := by
  unfold nested
  split <;> simp

theorem flat_warns (s : Src E) : ∀ (ctx : List Ident) (tail : Src E),
    (s.flat ctx tail).warns [] = (s.warns ctx).filter (fun d => decide (d ≠ .nestedAbsolute)) ++ tail.warns [] := by
  induction s with
  | nil => exact fun _ _ => rfl
  | semi rest ih => exact fun ctx tail => ih ctx tail
  | block p body rest ihb ihr =>
    intro ctx tail
    have hm : ∀ (path : List Ident) (s : Src E), (mention path s).warns [] = s.warns [] := by
      intro path s
      unfold mention
      split
      · rfl
      · simp [Src.warns, Leaf.warns, nested_nil]
    simp only [Src.flat, hm, Src.warns, List.filter_append, nested_filter, ihb, ihr, List.nil_append, List.append_assoc]
  | leaf p what ended rest ih =>
    intro ctx tail
    have hw : (what.warns ctx p).filter (fun d => decide (d ≠ .nestedAbsolute)) = what.warns ctx p := by
      rw [List.filter_eq_self]
      exact fun d hd => decide_eq_true (leafWarns_ne ctx p what d hd)
    simp only [Src.flat, Src.warns, List.filter_append, nested_filter, ih, nested_nil, warns_lift, hw, List.nil_append,
      List.append_assoc]

/-- **C63**: blocks only save writing.  The same declarations, each written on its own with its full path, give the
very same tree, and the same messages but those about absolute paths in blocks. -/
theorem blocks_only_save_writing {X : Parsers E C} {v : Env E C} (hv : v.Sound) (src : Src E)
    (h : src.Ok X [] false) :
    (src.flat [] .nil).isFlat = true ∧
    ∃ v', run X v src.toks = .ok v' [] (src.warns []) ∧
      run X v (src.flat [] .nil).toks = .ok v' [] ((src.warns []).filter fun d => decide (d ≠ .nestedAbsolute)) := by
  obtain ⟨v1, a1, _, _, e1⟩ := src_ok src (inner := false) [] [] hv (PosOk.root v) h (by simp)
  obtain ⟨v2, a2, _, _, e2⟩ := src_ok (src.flat [] .nil) (inner := false) [] [] hv (PosOk.root v)
    (flat_ok src [] false .nil h trivial) (by simp)
  rw [flat_facts src [] .nil v v1 a1] at a2
  cases a2
  rw [flat_warns] at e2
  refine ⟨flat_isFlat _ _ _ rfl, v1, ?_, ?_⟩
  · rw [run_eq]
    rw [List.append_nil] at e1
    rw [e1, entries_nil]
    rfl
  · rw [run_eq]
    rw [List.append_nil] at e2
    rw [e2, entries_nil]
    simp [Src.warns]

/-! ## C64: the parser ends -/

/-- **C64**: whatever the tokens, the parser ends -/
theorem parsing_ends (X : Parsers E C) (v : Env E C) (ts : List Tok) : run X v ts ≠ .fuel :=
  (enough X _).1 _ _ _ _ _ (Nat.le_refl _)

/-! ## C65: declarations that come later -/

/-- **C65**: what comes after some declarations is read as if it were the whole input, on top of the tree that the
declarations give, whether it is well-formed or not -/
theorem read_in_sequence {X : Parsers E C} {v : Env E C} (hv : v.Wf) (src : Src E) (h : src.Ok X [] false) :
    ∃ v', v'.Wf ∧ v'.see = (src.facts X []).foldl World.tell v.see ∧
      ∀ ts, run X v (src.toks ++ ts) = (run X v' ts).pre (src.warns []) := by
  obtain ⟨v', ha, _, _, _⟩ := src_ok src (inner := false) [] [] hv.sound (PosOk.root v) h (by simp)
  obtain ⟨w, s⟩ := addAll_see _ hv ha
  refine ⟨v', w, s, fun ts => ?_⟩
  obtain ⟨v'', ha', _, _, he⟩ := src_ok src (inner := false) ts [] hv.sound (PosOk.root v) h (by simp)
  rw [ha] at ha'
  cases ha'
  rw [run_eq, run_eq, he, entries_pre, List.nil_append]

/-- the subject of a fact about a variable or a proc -/
def Fact.about : Fact E C → Option (Bool × List Ident × Ident)
  | .type _ => none
  | .override p n _ | .var p n _ _ => some (false, p, n)
  | .proc p n _ _ _ => some (true, p, n)

theorem tell_comm (w : World E C) (f g : Fact E C) (h : f.about = none ∨ f.about ≠ g.about) :
    (w.tell f).tell g = (w.tell g).tell f := by
  have hor : ∀ a b c : Bool, (a || b || c) = (a || c || b) := by decide
  have hne : ∀ {p q : List Ident} {n m : Ident}, ¬ (p = q ∧ n = m) → ∀ (r : List Ident) (k : Ident),
      r = p ∧ k = n → ¬ (r = q ∧ k = m) := by
    rintro p q n m hn r k ⟨rfl, rfl⟩ hx
    exact hn hx
  have hvar : ∀ {A : Type} {p q : List Ident} {n m : Ident} (_ : ¬ (p = q ∧ n = m)) (x y : A)
      (o : List Ident → Ident → A),
      (fun (r : List Ident) (k : Ident) => if r = q ∧ k = m then y else if r = p ∧ k = n then x else o r k) =
      (fun r k => if r = p ∧ k = n then x else if r = q ∧ k = m then y else o r k) := by
    intro A p q n m hn x y o
    funext r k
    by_cases h1 : r = p ∧ k = n
    · rw [if_neg (hne hn r k h1), if_pos h1, if_pos h1]
    · rw [if_neg h1, if_neg h1]
  have hsym : ∀ {p q : List Ident} {n m : Ident}, ¬ (p = q ∧ n = m) → ¬ (q = p ∧ m = n) :=
    fun hn hx => hn ⟨hx.1.symm, hx.2.symm⟩
  cases f <;> cases g <;> simp only [World.tell, World.mk.injEq, hor, true_and, and_true] <;>
    simp only [Fact.about, ne_eq, Option.some.injEq, Prod.mk.injEq, true_and, reduceCtorEq, false_or] at h <;>
    first
      | exact trivial
      | rfl
      | (try simp only [if_neg h, if_neg (hsym h)]
         exact hvar h _ _ _)

theorem foldl_tell_comm (f : Fact E C) (gs : List (Fact E C)) : ∀ (w : World E C),
    (∀ g ∈ gs, f.about = none ∨ f.about ≠ g.about) → gs.foldl World.tell (w.tell f) = (gs.foldl World.tell w).tell f := by
  induction gs with
  | nil => exact fun _ _ => rfl
  | cons g gs ih =>
    intro w h
    simp only [List.foldl_cons]
    rw [tell_comm w f g (h g (by simp)), ih _ (fun g' hg => h g' (by simp [hg]))]

theorem foldl_comm (fs gs : List (Fact E C)) : ∀ (w : World E C),
    (∀ f ∈ fs, ∀ g ∈ gs, f.about = none ∨ f.about ≠ g.about) →
    gs.foldl World.tell (fs.foldl World.tell w) = fs.foldl World.tell (gs.foldl World.tell w) := by
  induction fs with
  | nil => exact fun _ _ => rfl
  | cons f fs ih =>
    intro w h
    simp only [List.foldl_cons]
    rw [ih _ (fun f' hf => h f' (by simp [hf])), foldl_tell_comm f gs w (h f (by simp))]

/-- **C65**: the order of declarations matters only for those about the same variable or proc of the same type: two
files that have none in common may be read in either order -/
theorem order_of_independent_files {X : Parsers E C} {v : Env E C} (hv : v.Wf) (a b : Src E) (ha : a.Ok X [] false)
    (hb : b.Ok X [] false)
    (h : ∀ f ∈ a.facts X [], ∀ g ∈ b.facts X [], f.about = none ∨ f.about ≠ g.about) :
    ∃ vab vba, run X v (a.toks ++ b.toks) = .ok vab [] (a.warns [] ++ b.warns []) ∧
      run X v (b.toks ++ a.toks) = .ok vba [] (b.warns [] ++ a.warns []) ∧ vab.see = vba.see := by
  obtain ⟨va, wa, sa, ra⟩ := read_in_sequence hv a ha
  obtain ⟨vb, wb, sb, rb⟩ := read_in_sequence hv b hb
  obtain ⟨vab, r1, _, s1⟩ := declarations_mean_their_paths wa b hb
  obtain ⟨vba, r2, _, s2⟩ := declarations_mean_their_paths wb a ha
  refine ⟨vab, vba, by rw [ra, r1]; rfl, by rw [rb, r2]; rfl, ?_⟩
  rw [s1, s2, sa, sb]
  exact foldl_comm _ _ _ h

/-! ## C64: no type is misused, nothing is lost -/

/-- an outcome that keeps what was there -/
def Out.Keeps (v : Env E C) : Out E C → Prop
  | .ok v' _ _ | .fail v' _ => v'.Sound ∧ Ext v v'
  | .panic => False
  | _ => True

theorem Out.Keeps.trans {v v' : Env E C} {o : Out E C} (h : Ext v v') (ho : o.Keeps v') : o.Keeps v := by
  cases o with
  | ok => exact ⟨ho.1, h.trans ho.2⟩
  | fail => exact ⟨ho.1, h.trans ho.2⟩
  | _ => exact ho

theorem Ext.le {v v' : Env E C} (h : Ext v v') : v.tree.inner.graph.length ≤ v'.tree.inner.graph.length := by
  by_contra hlt
  obtain ⟨n', hn', _⟩ := h v'.tree.inner.graph.length _ (List.getElem?_eq_getElem (by omega))
  rw [List.getElem?_eq_none (Nat.le_refl _)] at hn'
  cases hn'

theorem step_keeps {v : Env E C} (hv : v.Sound) {pos : Pos} (hp : pos.cur < v.tree.inner.graph.length) (n : Ident) :
    ∃ v' pos' ds, step v pos n = some (v', pos', ds) ∧ v'.Sound ∧ Ext v v' ∧ pos'.cur < v'.tree.inner.graph.length := by
  unfold step
  split
  · exact ⟨_, _, _, rfl, hv, Ext.refl _, hp⟩
  · split
    · split
      · exact ⟨_, _, _, rfl, hv, Ext.refl _, hp⟩
      · exact ⟨_, _, _, rfl, hv, Ext.refl _, hp⟩
    · split
      · exact ⟨_, _, _, rfl, hv, Ext.refl _, hp⟩
      · split
        · split
          · exact ⟨_, _, _, rfl, hv, Ext.refl _, hp⟩
          · exact ⟨_, _, _, rfl, hv, Ext.refl _, hp⟩
        · obtain ⟨v', j, hs, so, e, l⟩ := subtype_ok hv hp n
          rw [hs]
          refine ⟨_, _, _, rfl, so, e, ?_⟩
          exact (lookup_valid so _ _ _ (Nat.lt_of_lt_of_le hp e.le) l).1

theorem steps_keeps (ns : List Ident) : ∀ {v : Env E C} (_ : v.Sound) {pos : Pos}
    (_ : pos.cur < v.tree.inner.graph.length),
    ∃ v' pos' ds, steps v pos ns = some (v', pos', ds) ∧ v'.Sound ∧ Ext v v' ∧ pos'.cur < v'.tree.inner.graph.length := by
  induction ns with
  | nil => exact fun hv _ hp => ⟨_, _, _, rfl, hv, Ext.refl _, hp⟩
  | cons n ns ih =>
    intro v hv pos hp
    obtain ⟨v1, pos1, ds1, h1, so1, e1, p1⟩ := step_keeps hv hp n
    obtain ⟨v2, pos2, ds2, h2, so2, e2, p2⟩ := ih so1 p1
    exact ⟨v2, pos2, ds1 ++ ds2, by rw [steps, h1]; simp only [h2], so2, e1.trans e2, p2⟩

theorem start_lt {v : Env E C} (hv : v.Sound) {pos : Pos} (hp : pos.cur < v.tree.inner.graph.length) (abs : Bool) :
    (start pos abs).1.cur < v.tree.inner.graph.length := by
  unfold start
  split
  · exact hv.1
  · exact hp

theorem entryHead_keeps {X : Parsers E C} {v : Env E C} (hv : v.Sound) {pos : Pos}
    (hp : pos.cur < v.tree.inner.graph.length) (ts : List Tok) :
    match entryHead X v pos ts with
    | .panic => False
    | .fail v' _ => v'.Sound ∧ Ext v v'
    | .at v' pos' _ _ _ _ => v'.Sound ∧ Ext v v' ∧ pos'.cur < v'.tree.inner.graph.length
    | _ => True := by
  unfold entryHead
  cases treePath ts with
  | none => trivial
  | some r =>
    obtain ⟨abs, path, r, ds⟩ := r
    simp only
    cases path.getLast? with
    | none => trivial
    | some last =>
      obtain ⟨v1, pos1, ds1, h1, so1, e1, p1⟩ := steps_keeps path.dropLast hv (start_lt hv hp abs)
      simp only [h1]
      cases operatorName last r with
      | none => exact ⟨so1, e1⟩
      | some x =>
        simp only
        cases suffixIf X pos1.vt.isSome x.2 with
        | none => exact ⟨so1, e1⟩
        | some y => exact ⟨so1, e1, p1⟩

theorem assignEntry_keeps {X : Parsers E C} {v : Env E C} (hv : v.Sound) {pos : Pos}
    (hp : pos.cur < v.tree.inner.graph.length) (last : Ident) (suf : List (Option E)) (ts : List Tok)
    (ds : List Diag) : (assignEntry X v pos last suf ts ds).Keeps v := by
  unfold assignEntry
  rcases X.expr ts with - | - | ⟨e, r⟩
  · exact ⟨hv, Ext.refl _⟩
  · exact ⟨hv, Ext.refl _⟩
  · simp only
    rcases inputSpec X r with - | ⟨input, l, r', ds'⟩
    · exact ⟨hv, Ext.refl _⟩
    · simp only
      rcases terminator r' with - | r''
      · exact ⟨hv, Ext.refl _⟩
      · simp only
        rcases pos.vt with - | vt
        · obtain ⟨v', h, so, ex⟩ := override_ok hv hp last e
          simp only [h]
          exact ⟨so, ex⟩
        · obtain ⟨v', h, so, ex⟩ := declare_ok hv hp last { vt.suffix suf with input := input } (some (.expr e))
          simp only [h]
          exact ⟨so, ex⟩

theorem procEntry_keeps {X : Parsers E C} {v : Env E C} (hv : v.Sound) {pos : Pos}
    (hp : pos.cur < v.tree.inner.graph.length) (last : Ident) (ts : List Tok)
    (ds : List Diag) : (procEntry X v pos last ts ds).Keeps v := by
  unfold procEntry
  cases procRest X pos.pb ts with
  | none => exact ⟨hv, Ext.refl _⟩
  | some r =>
    obtain ⟨p, ret, r, ds'⟩ := r
    obtain ⟨v', h, so, ex⟩ := proc_ok hv hp last pos.pb ret p
    simp only [h]
    exact ⟨so, ex⟩

theorem bareVar_keeps {X : Parsers E C} {v : Env E C} (hv : v.Sound) {cur : Nat}
    (hp : cur < v.tree.inner.graph.length) (vt : VarTy) (last : Ident) (suf : List (Option E)) (ts : List Tok)
    (ds : List Diag) : (bareVar X v cur vt last suf ts ds).Keeps v := by
  unfold bareVar
  cases inputSpec X ts with
  | none => exact ⟨hv, Ext.refl _⟩
  | some r =>
    obtain ⟨input, e, r, ds'⟩ := r
    simp only
    split
    · exact ⟨hv, Ext.refl _⟩
    · split
      · exact ⟨hv, Ext.refl _⟩
      · obtain ⟨v', h, so, ex⟩ := declare_ok hv hp last { vt.suffix suf with input := input } (initializer suf)
        rw [h]
        exact ⟨so, ex⟩

theorem bareEntry_keeps {v : Env E C} (hv : v.Sound) {pos : Pos}
    (hp : pos.cur < v.tree.inner.graph.length) (last : Ident) (ts : List Tok)
    (ds : List Diag) : (bareEntry v pos last ts ds).Keeps v := by
  unfold bareEntry
  split
  · exact ⟨hv, Ext.refl _⟩
  · split
    · exact ⟨hv, Ext.refl _⟩
    · split
      · exact ⟨hv, Ext.refl _⟩
      · obtain ⟨v', j, h, so, ex, _⟩ := subtype_ok hv hp last
        rw [h]
        exact ⟨so, ex⟩

theorem keeps (X : Parsers E C) (f : Nat) :
    (∀ pos inner (v : Env E C) ts ds, v.Sound → pos.cur < v.tree.inner.graph.length →
      (treeEntries X f pos inner v ts ds).Keeps v) ∧
    (∀ pos (v : Env E C) ts ds, v.Sound → pos.cur < v.tree.inner.graph.length →
      (treeEntry X f pos v ts ds).Keeps v) := by
  induction f with
  | zero => exact ⟨fun _ _ _ _ _ _ _ => by simp [treeEntries, Out.Keeps], fun _ _ _ _ _ _ => by simp [treeEntry, Out.Keeps]⟩
  | succ f ih =>
    obtain ⟨ih1, ih2⟩ := ih
    constructor
    · intro pos inner v ts ds hv hp
      rw [treeEntries.eq_def]
      simp only
      split
      · split
        · trivial
        · exact ⟨hv, Ext.refl _⟩
      · exact ih1 _ _ _ _ _ hv hp
      · rename_i t rest _
        split
        · exact ⟨hv, Ext.refl _⟩
        · have h2 := ih2 pos v (t :: rest) ds hv hp
          cases ho : treeEntry X f pos v (t :: rest) ds with
          | ok v' r ds' =>
            rw [ho] at h2
            exact (ih1 _ _ _ _ _ h2.1 (Nat.lt_of_lt_of_le hp h2.2.le)).trans h2.2
          | nothing => exact ⟨hv, Ext.refl _⟩
          | fail v' ds' => rw [ho] at h2; exact h2
          | panic => rw [ho] at h2; exact h2
          | afterEof => trivial
          | fuel => trivial
    · intro pos v ts ds hv hp
      rw [treeEntry.eq_def]
      simp only
      have hh := entryHead_keeps (X := X) hv hp ts
      cases ho : entryHead X v pos ts with
      | nothing => trivial
      | fail v' ds' => rw [ho] at hh; exact hh
      | panic => rw [ho] at hh; exact hh
      | empty r ds' => exact ⟨hv, Ext.refl _⟩
      | «at» v1 pos1 last suf r ds1 =>
        rw [ho] at hh
        obtain ⟨so1, e1, p1⟩ := hh
        refine Out.Keeps.trans e1 ?_
        simp only
        split
        · obtain ⟨v2, pos2, ds2, h2, so2, e2, p2⟩ := step_keeps so1 p1 last
          rw [h2]
          exact (ih1 _ _ _ _ _ so2 p2).trans e2
        · exact assignEntry_keeps so1 p1 ..
        · exact procEntry_keeps so1 p1 ..
        · split
          · exact bareVar_keeps so1 p1 ..
          · exact bareEntry_keeps so1 p1 ..

/-- **C64**: whatever the tokens, no type that is not in the tree is ever used: the only panic is "kept parsing after
EOF" -/
theorem tree_is_not_misused (X : Parsers E C) {v : Env E C} (hv : v.Sound) (ts : List Tok) :
    run X v ts ≠ .panic := by
  intro hx
  have := (keeps X (2 * ts.length + 1)).1 .root false v ts [] hv hv.1
  unfold run at hx
  rw [hx] at this
  exact this

/-- **C65**: whatever the tokens, and also if a fatal error ends the reading, the types that were there stay -/
theorem types_stay (X : Parsers E C) {v v' : Env E C} (hv : v.Sound) (ts : List Tok)
    (h : (∃ rest ds, run X v ts = .ok v' rest ds) ∨ ∃ ds, run X v ts = .fail v' ds) (p : List Ident)
    (hp : v.see.isType p = true) : v'.see.isType p = true := by
  have hk := (keeps X (2 * ts.length + 1)).1 .root false v ts [] hv hv.1
  have he : Ext v v' := by
    rcases h with ⟨rest, ds, h⟩ | ⟨ds, h⟩ <;> unfold run at h <;> rw [h] at hk <;> exact hk.2
  obtain ⟨i, hi⟩ := Option.isSome_iff_exists.1 hp
  exact Option.isSome_iff_exists.2 ⟨i, lookup_ext he p 0 i hi⟩

/-- **C64**: the block of a type that is not closed at the end of the file makes the parser panic, whatever well-formed
declarations come before it and are in it -/
theorem unclosed_block_panics {X : Parsers E C} {v : Env E C} (hv : v.Wf) (src : Src E) (h : src.Ok X [] false)
    (p : PathW) (hp : p.NotOp) (hpl : (read (full [] p)).2.plain) (body : Src E)
    (hb : body.Ok X (full [] p) false) : run X v (src.toks ++ (p.toks ++ .lbrace :: body.toks)) = .afterEof := by
  obtain ⟨v0, w0, _, r0⟩ := read_in_sequence hv src h
  rw [r0]
  have hfull := full_eq [] p
  obtain ⟨v1, pos1, p1, so1, e1, pl1, hh⟩ := head_ok (X := X) w0.sound (PosOk.root v0) p (pathOk_nil p)
    (plain_prefix _ [p.last] (by rw [← hfull]; exact hpl))
  obtain ⟨v2, pos2, s2, p2, so2, e2, pl2⟩ := step_ok so1 p1 p.last (by rw [← hfull]; exact hpl)
  rw [← hfull] at p2
  obtain ⟨v3, a3, so3, e3, en3⟩ := src_ok body (inner := true) (last := false) [] ([] ++ nested [] p) so2 p2 hb
    (by simp)
  have hentry : entry X .root v0 (p.toks ++ .lbrace :: body.toks) [] = .afterEof := by
    rw [entry_eq X .root v0 _ [] (path_ne_nil _ _), hh (.lbrace :: _) p.last _ [] _
      (by intro t hx; simp at hx; subst hx; rfl)
      (by intro _ s hx; simp at hx)
      (by rw [not_trail_operator hp]; exact operatorName_plain _ _ _ rfl (by simp) (by simp))
      (by
        unfold suffixIf
        split
        · exact varSuffix_end X _ (by simp)
        · rfl)]
    simp only [s2, List.append_nil]
    rw [List.append_nil] at en3
    rw [en3, entries_nil]
    rfl
  obtain ⟨t, r, hp1, hp2, hp3⟩ := path_start p (.lbrace :: body.toks)
  rw [run_eq, hp1, entries_cons X .root false v0 t r [] hp2 (fun hx => hp3 hx.2), ← hp1, hentry]
  rfl

end Verif.Decl
