import Verif.Preproc.MacroLemmas
import Verif.Preproc.ProgramSpec

namespace Verif.Preproc

open Verif.Context (Location)
open Verif.Lexer (Tok Punct DocTarget CommentKind)

namespace PP

/-! ## `#define` lines -/

/-- same state up to diagnostics -/
def SameBut (s s' : PP) : Prop := ∃ e, s' = { s with errs := e }

theorem SameBut.refl (s : PP) : SameBut s s := ⟨s.errs, rfl⟩

theorem readSubst_line (ts : List Tok) (hn : ∀ t ∈ ts, t ≠ newline) :
    ∀ (N : Nat) (s : PP) (st' : List Include) (acc : List Tok) (k : List Tok → PP → Res),
      ts.length < N → Reads s.stack (ts ++ [newline]) st' →
      ∃ e, readSubst N s acc k = k (acc ++ ts.filter fun t => !isDoc t) { s with
        stack := st'
        errs := e } := by
  induction ts with
  | nil =>
    intro N s st' acc k hN h
    obtain ⟨N, rfl⟩ : ∃ m, N = m + 1 := ⟨N - 1, by simp at hN; omega⟩
    cases h with
    | cons h1 h2 =>
      cases h2
      refine ⟨s.errs, ?_⟩
      rw [readSubst, withNext_eq h1, if_pos rfl]
      simp
  | cons t ts ih =>
    intro N s st' acc k hN h
    obtain ⟨N, rfl⟩ : ∃ m, N = m + 1 := ⟨N - 1, by simp at hN; omega⟩
    have ih := ih fun u hu => hn u (by simp [hu])
    rw [List.cons_append] at h
    cases h with
    | @cons _ st1 _ l _ _ h1 h2 =>
      rw [readSubst, withNext_eq h1, if_neg (hn t (by simp))]
      have hN' : ts.length < N := by simp at hN; omega
      cases t with
      | doc kd tg tx =>
        cases tg with
        | enclosingItem =>
          obtain ⟨e, he⟩ := ih N { s with stack := st1 } st' acc k hN' h2
          exact ⟨e, by simpa [isDoc, docHint] using he⟩
        | followingItem =>
          obtain ⟨e, he⟩ := ih N (({ s with stack := st1 } : PP).err .docTarget) st' acc k hN' h2
          exact ⟨e, by simpa [isDoc, docHint, err] using he⟩
      | _ =>
        obtain ⟨e, he⟩ := ih N { s with stack := st1 } st' (acc ++ [_]) k hN' h2
        refine ⟨e, he.trans ?_⟩
        simp only [List.filter_cons, isDoc, Bool.not_false, if_true, List.append_assoc,
          List.singleton_append]

theorem readParams_list {hd : List Tok} {ps : List Name} {v : Bool} (hp : Params hd ps v) :
    ∀ (N : Nat) (s : PP) (st' : List Include) (acc : List Name) (k : List Name → Bool → PP → Res),
      hd.length ≤ N → Reads s.stack (hd ++ [rparen]) st' →
      readParams N s acc k = k (acc ++ ps) v { s with stack := st' } := by
  induction hp with
  | one =>
    intro N s st' acc k hN h
    obtain ⟨N, rfl⟩ : ∃ m, N = m + 1 := ⟨N - 1, by simp at hN; omega⟩
    cases h with
    | cons h1 h2 =>
      cases h2 with
      | cons h3 h4 =>
        cases h4
        rw [readParams, withNext_eq h1]
        simp only
        rw [withNext_eq h3, if_neg (by decide), if_pos rfl]
  | dots =>
    intro N s st' acc k hN h
    obtain ⟨N, rfl⟩ : ∃ m, N = m + 1 := ⟨N - 1, by simp at hN; omega⟩
    cases h with
    | cons h1 h2 =>
      cases h2 with
      | cons h3 h4 =>
        cases h4
        rw [readParams, withNext_eq h1]
        simp only [ellipsis]
        rw [if_pos trivial, withNext_eq h3, if_neg (by decide), if_pos rfl]
  | oneDots =>
    intro N s st' acc k hN h
    obtain ⟨N, rfl⟩ : ∃ m, N = m + 1 := ⟨N - 1, by simp at hN; omega⟩
    cases h with
    | cons h1 h2 =>
      cases h2 with
      | cons h3 h4 =>
        cases h4 with
        | cons h5 h6 =>
          cases h6
          rw [readParams, withNext_eq h1]
          simp only
          rw [withNext_eq h3, if_neg (by decide), if_neg (by decide), if_pos rfl, withNext_eq h5,
            if_pos rfl]
  | more _ ih =>
    intro N s st' acc k hN h
    obtain ⟨N, rfl⟩ : ∃ m, N = m + 1 := ⟨N - 1, by simp at hN; omega⟩
    cases h with
    | cons h1 h2 =>
      cases h2 with
      | cons h3 h4 =>
        rw [readParams, withNext_eq h1]
        simp only
        rw [withNext_eq h3, if_pos rfl, if_neg (by simp),
          ih N _ st' _ k (by simp at hN; omega) h4]
        simp

theorem Params.ne_nil {hd : List Tok} {ps : List Name} {v : Bool} (hp : Params hd ps v) : ps ≠ [] := by
  cases hp <;> simp

theorem reads_file (p : Path) (st : List Include) (rest : List LTok) (ts : List LTok) :
    Reads (.file p (ts ++ rest) :: st) (ts.map LTok.tok) (.file p rest :: st) := by
  induction ts with
  | nil => exact .nil
  | cons t ts ih => exact .cons rfl ih

theorem size_eq (s : PP) : s.size = ssize s.stack := rfl

/-- the effect of a `#define` line -/
theorem doDefine_line {env : Env} {s : PP} {p : Path} {t : LTok} {line b : List LTok} {l3 : Location}
    {st : List Include} {n : Name} {d : Define}
    (hs : s.stack = .file p (t :: (line ++ ⟨l3, newline⟩ :: b)) :: st)
    (hd : DefineLine ((t :: line).map LTok.tok) n d) :
    ∃ e, s.doDefine env = .ok (({ s with
      stack := .file p b :: st
      docsIn := []
      errs := e } : PP).finishDefine env n t.loc d) := by
  obtain ⟨lt, tt⟩ := t
  have hr := reads_file p st b (line ++ [⟨l3, newline⟩])
  rw [show line ++ [⟨l3, newline⟩] ++ b = line ++ ⟨l3, newline⟩ :: b by simp, List.map_append] at hr
  unfold doDefine
  rw [withNext_eq (s := { s with docsIn := [] }) (l := lt) (t := tt)
    (st' := .file p (line ++ ⟨l3, newline⟩ :: b) :: st) (by rw [hs]; rfl)]
  generalize hz : line.map LTok.tok = z at hd hr
  rw [List.map_cons, hz] at hd
  cases hd with
  | @object _ ws ts h1 h2 =>
    simp only
    cases z with
    | nil =>
      cases hr with
      | cons g1 g2 =>
        cases g2
        refine ⟨s.errs, ?_⟩
        rw [withNext_eq (by exact g1), if_neg (by simp [newline, lparen]), if_pos rfl]
        rfl
    | cons x z =>
      rw [List.cons_append] at hr
      cases hr with
      | @cons _ st1 _ l' _ _ g1 g2 =>
        rw [withNext_eq (by exact g1)]
        rw [if_neg (by rintro ⟨rfl, h⟩; exact h1 h rfl), if_neg (h2 x (by simp))]
        have hsz : z.length < ssize st1 + 1 := by
          rw [g2.size]; simp; omega
        cases x with
        | doc kd tg tx =>
          cases tg with
          | enclosingItem =>
            obtain ⟨e, he⟩ := readSubst_line z (fun u hu => h2 u (by simp [hu])) (ssize st1 + 1)
              { s with
                docsIn := []
                stack := st1 } _ [] (fun subst s => .ok (s.finishDefine env n lt (mkDefine [] subst false)))
              hsz g2
            exact ⟨e, he⟩
          | followingItem =>
            obtain ⟨e, he⟩ := readSubst_line z (fun u hu => h2 u (by simp [hu])) (ssize st1 + 1)
              (({ s with
                docsIn := []
                stack := st1 } : PP).err .docTarget) _ []
              (fun subst s => .ok (s.finishDefine env n lt (mkDefine [] subst false))) hsz g2
            exact ⟨e, he⟩
        | _ =>
          obtain ⟨e, he⟩ := readSubst_line z (fun u hu => h2 u (by simp [hu])) (ssize st1 + 1)
            { s with
              docsIn := []
              stack := st1 } _ [_] (fun subst s => .ok (s.finishDefine env n lt (mkDefine [] subst false)))
            hsz g2
          exact ⟨e, he⟩
  | @function _ hd ts ps v h1 h2 =>
    simp only
    change Reads _ (lparen :: ((hd ++ rparen :: ts) ++ [newline])) _ at hr
    rw [List.append_assoc] at hr
    cases hr with
    | @cons _ st1 _ l' _ _ g1 g2 =>
      rw [withNext_eq (by exact g1), if_pos (by simp)]
      rw [List.cons_append, ← List.singleton_append, ← List.append_assoc] at g2
      obtain ⟨st2, g3, g4⟩ := g2.append
      have hsz1 : hd.length ≤ ssize st1 + 1 := by
        rw [g3.size]; simp; omega
      rw [size_eq, readParams_list h1 (ssize st1 + 1) _ st2 [] _ hsz1 g3]
      have hsz2 : ts.length < ssize st2 + 1 := by
        rw [g4.size]; simp; omega
      obtain ⟨e, he⟩ := readSubst_line ts h2 (ssize st2 + 1)
        { s with
          docsIn := []
          stack := st2 } _ [] (fun subst s => .ok (s.finishDefine env n lt (mkDefine ps subst v)))
        hsz2 g4
      refine ⟨e, ?_⟩
      simp only [List.nil_append]
      refine he.trans ?_
      have : mkDefine ps (ts.filter fun t => !isDoc t) v = .function ps (ts.filter fun t => !isDoc t) v := by
        unfold mkDefine
        rw [if_neg]
        simpa using Params.ne_nil h1
      simp only [List.nil_append, this]

/-! ## Programs -/

/-- the part of the state a program can change -/
def worldOf (s : PP) : World := ⟨s.defines, s.incLocs, s.multi, s.maps, s.skins, s.scripts⟩

/-- `s'` is reached from `s` having delivered `out` (up to line ends) -/
structure Reached (env : Env) (s : PP) (p : Path) (rest : List LTok) (st : List Include) (w : World)
    (out : List LTok) (s' : PP) : Prop where
  steps : Micros env false s s'
  pos : At s' p rest st
  world : worldOf s' = w
  ifdefs : s'.ifdefs = s.ifdefs
  docs : s'.docsIn = []
  panic : s'.panic = s.panic
  out : ∃ o, s'.output = s.output ++ o ∧ inline o = inline out

theorem inline_append (a b : List LTok) : inline (a ++ b) = inline a ++ inline b := by
  simp [inline]

theorem inline_newlines {a : List LTok} (h : ∀ t ∈ a, t.tok = newline) : inline a = [] := by
  simp [inline]
  exact h

theorem isDisabled_of_ifdefs {a b : PP} (h : a.ifdefs = b.ifdefs) : a.isDisabled = b.isDisabled := by
  unfold isDisabled; rw [h]

theorem Reached.trans {env : Env} {s s1 s2 : PP} {p q : Path} {r r' : List LTok} {st st' : List Include}
    {w w' : World} {o o' : List LTok} (h : Reached env s p r st w o s1)
    (h' : Reached env s1 q r' st' w' o' s2) : Reached env s q r' st' w' (o ++ o') s2 := by
  obtain ⟨a, h1, h2⟩ := h.out
  obtain ⟨b, h3, h4⟩ := h'.out
  exact ⟨h.steps.trans h'.steps, h'.pos, h'.world, h'.ifdefs.trans h.ifdefs, h'.docs,
    h'.panic.trans h.panic, a ++ b, by rw [h3, h1, List.append_assoc], by
      rw [inline_append, inline_append, h2, h4]⟩

/-- a directive in an active region -/
theorem reached_directive {env : Env} {s : PP} {p q : Path} {l1 l2 : Location} {ws : Bool} {dn : Name}
    {ts r : List LTok} {st st' : List Include}
    (ha : At s p (⟨l1, hash⟩ :: ⟨l2, .ident dn ws⟩ :: ts) st) (hdis : s.isDisabled = false)
    {n : Nat} {s2 : PP} {w : World}
    (h : ({ s with
          stack := .file p ts :: st
          lastLoc := l1
          output := [] } : PP).onDirective env (evaluateOf env (pump env n)) false (dirOf dn) = .ok s2)
    (hpos : s2.stack = .file q r :: st') (hw : worldOf s2 = w) (hi : s2.ifdefs = s.ifdefs)
    (hd : s2.docsIn = []) (hp : s2.panic = s.panic) (ho : ∀ t ∈ s2.output, t.tok = newline) :
    Reached env s q r st' w [] { s2 with output := s.output ++ s2.output } := by
  have hm := step_directive (env := env) (n := n) ha (s2 := s2) (by rw [hdis]; exact h)
  refine ⟨.one hm, ?_, hw, hi, hd, hp, s2.output, rfl, ?_⟩
  · unfold At; rw [show ({ s2 with output := s.output ++ s2.output } : PP).stack = _ from hpos]
  · rw [inline_newlines ho]; rfl

/-- an `#include` line in an active region -/
theorem reached_include {env : Env} {s : PP} {p q : Path} {l1 l2 l3 l4 : Location} {ws : Bool}
    {path : List Char} {ts r : List LTok} {st st' : List Include}
    (ha : At s p (⟨l1, hash⟩ :: ⟨l2, .ident "include".toList ws⟩ :: ⟨l3, .str path⟩ :: ⟨l4, newline⟩ :: ts) st)
    (hdis : s.isDisabled = false) {s2 : PP} {w : World}
    (h : ({ s with
          stack := .file p ts :: st
          lastLoc := l1
          output := [] } : PP).doInclude env path = s2)
    (hpos : s2.stack = .file q r :: st') (hw : worldOf s2 = w) (hi : s2.ifdefs = s.ifdefs)
    (hd : s2.docsIn = []) (hp : s2.panic = s.panic) (ho : ∀ t ∈ s2.output, t.tok = newline) :
    Reached env s q r st' w [] { s2 with output := s.output ++ s2.output } := by
  refine reached_directive (env := env) (n := 0) ha hdis (s2 := s2) ?_ hpos hw hi hd hp ho
  rw [show dirOf "include".toList = .include by decide +kernel]
  simp only [onDirective, Bool.false_eq_true, if_false]
  unfold readInclude
  rw [withNext_eq rfl]
  simp only
  rw [withNext_eq rfl, if_pos rfl, ← h]

theorem finishDefine_facts (env : Env) (s : PP) (p : Path) (ts : List LTok) (st : List Include) (n : Name)
    (l : Location) (d : Define) (hs : s.stack = .file p ts :: st) (ho : s.output = []) :
    (s.finishDefine env n l d).stack = s.stack ∧
    worldOf (s.finishDefine env n l d) =
      (if n = "DEBUG".toList ∧ p ≠ env.envFile then worldOf s
         else { worldOf s with defs := ((worldOf s).defs.insert n (l, d)).2 }) ∧
    (s.finishDefine env n l d).ifdefs = s.ifdefs ∧ (s.finishDefine env n l d).docsIn = s.docsIn ∧
    (s.finishDefine env n l d).panic = s.panic ∧
    ∀ t ∈ (s.finishDefine env n l d).output, t.tok = newline := by
  have henv : s.inEnvironment env = decide (p = env.envFile) := by
    unfold inEnvironment; rw [hs]; simp [topFile]
  unfold finishDefine
  rw [henv]
  by_cases h1 : n = "DEBUG".toList
  · by_cases h2 : p = env.envFile
    · rw [if_pos (by simp [h2]), if_neg (by simp [h2])]
      split
      · split_ifs <;> exact ⟨rfl, rfl, rfl, rfl, rfl, by simp [push, err, ho]⟩
      · exact ⟨rfl, rfl, rfl, rfl, rfl, by simp [push, ho]⟩
    · rw [if_neg (by simp only [h1, h2]; decide), if_pos ⟨h1, h2⟩]
      exact ⟨rfl, rfl, rfl, rfl, rfl, by simp [push, ho]⟩
  · rw [if_pos (by simp only [ne_eq, h1, not_false_eq_true, decide_true, Bool.true_or]),
      if_neg (fun h => h1 h.1)]
    split
    · split_ifs <;> exact ⟨rfl, rfl, rfl, rfl, rfl, by simp [push, err, ho]⟩
    · exact ⟨rfl, rfl, rfl, rfl, rfl, by simp [push, ho]⟩

theorem get_remove {m : DefineMap} {n : Name} : (m.remove n).1 = m.get n := by
  unfold DefineMap.remove DefineMap.get
  cases m.find n <;> rfl

theorem program_steps {env : Env} {p : Path} {room : Nat} {w w' : World} {ts out : List LTok}
    (h : Program env p room w ts out w') :
    ∀ (s : PP) (rest : List LTok) (st : List Include), At s p (ts ++ rest) st → room = 32 - st.length →
      worldOf s = w → s.isDisabled = false → s.docsIn = [] →
      ∃ s', Reached env s p rest st w' out s' := by
  induction h with
  | nil =>
    intro s rest st ha _ hw _ hdoc
    exact ⟨s, .refl s, ha, hw, rfl, hdoc, rfl, [], by simp, rfl⟩
  | @text p room w w' a b o o' hx _ ih =>
    intro s rest st ha hr hw hdis hdoc
    subst hw
    obtain ⟨s1, h1, h2⟩ := expands_steps hx s (.file p (a ++ (b ++ rest))) (.file p (b ++ rest)) st
      .file hr rfl hdis hdoc rfl (by rw [List.append_assoc] at ha; exact ha)
    obtain ⟨h3, e, h4⟩ := h2
    have hre : Reached env s p (b ++ rest) st (worldOf s) o s1 :=
      ⟨h1, h3, by rw [h4]; rfl, by rw [h4], by rw [h4], by rw [h4], o, by rw [h4], rfl⟩
    obtain ⟨s2, h5⟩ := ih s1 rest st h3 hr hre.world (by rw [isDisabled_of_ifdefs hre.ifdefs, hdis])
      hre.docs
    exact ⟨s2, hre.trans h5⟩
  | @define p room w w' l1 l2 l3 ws n t line b o d hd _ ih =>
    intro s rest st ha hr hw hdis hdoc
    subst hw
    have ha' : At s p (⟨l1, hash⟩ :: ⟨l2, .ident "define".toList ws⟩ ::
        (t :: (line ++ ⟨l3, newline⟩ :: (b ++ rest)))) st := by
      simpa [dirTok] using ha
    obtain ⟨e, he⟩ := doDefine_line (env := env) (s := { s with
          stack := .file p (t :: (line ++ ⟨l3, newline⟩ :: (b ++ rest))) :: st
          lastLoc := l1
          output := [] }) rfl hd
    obtain ⟨f1, f2, f3, f4, f5, f6⟩ := finishDefine_facts env ({ s with
          stack := .file p (b ++ rest) :: st
          lastLoc := l1
          output := []
          docsIn := []
          errs := e } : PP) p (b ++ rest) st n t.loc d rfl rfl
    have hre := reached_directive (env := env) (n := 0) ha' hdis (by
        rw [show dirOf "define".toList = .define by decide +kernel]; exact he) f1 f2 f3 f4 f5 f6
    obtain ⟨s2, h5⟩ := ih _ rest st hre.pos hr hre.world (by rw [isDisabled_of_ifdefs hre.ifdefs, hdis])
      hre.docs
    exact ⟨s2, hre.trans h5⟩
  | @undef p room w w' l1 l2 l3 l4 ws ws' n b o _ ih =>
    intro s rest st ha hr hw hdis hdoc
    subst hw
    have ha' : At s p (⟨l1, hash⟩ :: ⟨l2, .ident "undef".toList ws⟩ ::
        (⟨l3, .ident n ws'⟩ :: ⟨l4, newline⟩ :: (b ++ rest))) st := ha
    cases hg : (s.defines.remove n).1 with
    | none =>
      have hre := reached_directive (env := env) (n := 0) (s2 := (({ s with
          stack := .file p (b ++ rest) :: st
          lastLoc := l1
          output := [] } : PP).err .undefUndefined).push newline) ha' hdis (by
          rw [show dirOf "undef".toList = .undef by decide +kernel]
          simp only [onDirective, Bool.false_eq_true, if_false]
          unfold doUndef
          rw [withNext_eq rfl]
          simp only
          rw [withNext_eq rfl, if_pos rfl]
          simp only [hg]) (by rfl) (by rfl) (by rfl) (by exact hdoc) (by rfl) (by simp [push, err])
      have hg' : ((worldOf s).defs.get n).isSome = false := by
        change (s.defines.get n).isSome = false
        rw [← get_remove, hg]; rfl
      rw [hg'] at ih
      obtain ⟨s2, h5⟩ := ih _ rest st hre.pos hr hre.world
        (by rw [isDisabled_of_ifdefs hre.ifdefs, hdis]) hre.docs
      exact ⟨s2, hre.trans h5⟩
    | some prev =>
      have hre := reached_directive (env := env) (n := 0) (s2 := (({ s with
          stack := .file p (b ++ rest) :: st
          lastLoc := l1
          output := []
          defines := (s.defines.remove n).2 } : PP).moveToHistory n prev).push newline) ha' hdis (by
          rw [show dirOf "undef".toList = .undef by decide +kernel]
          simp only [onDirective, Bool.false_eq_true, if_false]
          unfold doUndef
          rw [withNext_eq rfl]
          simp only
          rw [withNext_eq rfl, if_pos rfl]
          simp only [hg]) (by rfl) (by rfl) (by rfl) (by exact hdoc) (by rfl) (by simp [push, moveToHistory])
      have hg' : ((worldOf s).defs.get n).isSome = true := by
        change (s.defines.get n).isSome = true
        rw [← get_remove, hg]; rfl
      rw [hg'] at ih
      obtain ⟨s2, h5⟩ := ih _ rest st hre.pos hr hre.world
        (by rw [isDisabled_of_ifdefs hre.ifdefs, hdis]) hre.docs
      exact ⟨s2, hre.trans h5⟩
  | @multiple p room w w' l1 l2 l3 ws ws' b o _ ih =>
    intro s rest st ha hr hw hdis hdoc
    subst hw
    have ha' : At s p (⟨l1, hash⟩ :: ⟨l2, .ident "pragma".toList ws⟩ ::
        (⟨l3, .ident "multiple".toList ws'⟩ :: (b ++ rest))) st := ha
    have hre := reached_directive (env := env) (n := 0) ha' hdis (by
        rw [show dirOf "pragma".toList = .pragma by decide +kernel]
        simp only [onDirective, Bool.false_eq_true, if_false]
        unfold readPragma
        rw [withNext_eq rfl]
        simp only
        rw [if_pos trivial]) (by rfl) (by rfl) (by rfl) (by exact hdoc) (by rfl) (by simp [push])
    obtain ⟨s2, h5⟩ := ih _ rest st hre.pos hr hre.world
      (by rw [isDisabled_of_ifdefs hre.ifdefs, hdis]) hre.docs
    exact ⟨s2, hre.trans h5⟩
  | @source p q room w w1 w' l1 l2 l3 l4 ws path ts b o o' hq ho hm _ _ ih1 ih2 =>
    intro s rest st ha hr hw hdis hdoc
    subst hw
    have ha' : At s p (⟨l1, hash⟩ :: ⟨l2, .ident "include".toList ws⟩ ::
        (⟨l3, .str path⟩ :: ⟨l4, newline⟩ :: (b ++ rest))) st := ha
    have hre : ∃ s1, Reached env s q ts (.file p (b ++ rest) :: st)
        (if env.fileId q ∈ (worldOf s).seen then worldOf s
          else { worldOf s with seen := env.fileId q :: (worldOf s).seen }) [] s1 := by
      by_cases hseen : env.fileId q ∈ s.incLocs
      · rw [if_pos (by exact hseen)]
        exact ⟨_, reached_include (env := env) (s2 := { ({ s with
          stack := .file p (b ++ rest) :: st
          lastLoc := l1
          output := [] } : PP).push newline with stack := .file q ts :: .file p (b ++ rest) :: st }) ha' hdis (by
          simp only [doInclude, topFile, Option.getD_some, hq, includeFile, ho]
          rw [if_pos hseen, if_pos (by exact hm hseen)]) (by rfl) (by rfl) (by rfl) (by exact hdoc) (by rfl) (by simp [push])⟩
      · rw [if_neg (by exact hseen)]
        exact ⟨_, reached_include (env := env) (s2 := { ({ s with
          stack := .file p (b ++ rest) :: st
          lastLoc := l1
          output := [] } : PP).push newline with stack := .file q ts :: .file p (b ++ rest) :: st, incLocs := env.fileId q :: s.incLocs }) ha' hdis (by
          simp only [doInclude, topFile, Option.getD_some, hq, includeFile, ho]
          rw [if_neg hseen]) (by rfl) (by rfl) (by rfl) (by exact hdoc) (by rfl) (by simp [push])⟩
    obtain ⟨s1, hre⟩ := hre
    obtain ⟨s2, h5⟩ := ih1 s1 [] (.file p (b ++ rest) :: st) (by rw [List.append_nil]; exact hre.pos)
      (by simp; omega) hre.world (by rw [isDisabled_of_ifdefs hre.ifdefs, hdis]) hre.docs
    have h6 := hre.trans h5
    obtain ⟨s3, h7⟩ := ih2 s2 rest st h6.pos hr h6.world
      (by rw [isDisabled_of_ifdefs h6.ifdefs, hdis]) h6.docs
    exact ⟨s3, h6.trans h7⟩
  | @included p q room w w' l1 l2 l3 l4 ws path ts b o hq ho hs1 hs2 _ ih =>
    intro s rest st ha hr hw hdis hdoc
    subst hw
    have ha' : At s p (⟨l1, hash⟩ :: ⟨l2, .ident "include".toList ws⟩ ::
        (⟨l3, .str path⟩ :: ⟨l4, newline⟩ :: (b ++ rest))) st := ha
    have hre := reached_include (env := env) (s2 := ({ s with
          stack := .file p (b ++ rest) :: st
          lastLoc := l1
          output := [] } : PP).err .duplicateInclude) ha' hdis (by
        simp only [doInclude, topFile, Option.getD_some, hq, includeFile, ho]
        rw [if_pos (by exact hs1), if_neg (by exact hs2)]) (by rfl) (by rfl) (by rfl) (by exact hdoc) (by rfl) (by simp [err])
    obtain ⟨s2, h5⟩ := ih _ rest st hre.pos hr hre.world
      (by rw [isDisabled_of_ifdefs hre.ifdefs, hdis]) hre.docs
    exact ⟨s2, hre.trans h5⟩
  | @map p q room w w' l1 l2 l3 l4 ws path b o hq _ ih =>
    intro s rest st ha hr hw hdis hdoc
    subst hw
    have ha' : At s p (⟨l1, hash⟩ :: ⟨l2, .ident "include".toList ws⟩ ::
        (⟨l3, .str path⟩ :: ⟨l4, newline⟩ :: (b ++ rest))) st := ha
    have hre := reached_include (env := env) (s2 := ({ s with
          stack := .file p (b ++ rest) :: st
          lastLoc := l1
          output := []
          maps := q :: s.maps } : PP)) ha' hdis (by
        simp only [doInclude, topFile, Option.getD_some, hq]) (by rfl) (by rfl) (by rfl) (by exact hdoc) (by rfl) (by simp)
    obtain ⟨s2, h5⟩ := ih _ rest st hre.pos hr hre.world
      (by rw [isDisabled_of_ifdefs hre.ifdefs, hdis]) hre.docs
    exact ⟨s2, hre.trans h5⟩
  | @skin p q room w w' l1 l2 l3 l4 ws path b o hq _ ih =>
    intro s rest st ha hr hw hdis hdoc
    subst hw
    have ha' : At s p (⟨l1, hash⟩ :: ⟨l2, .ident "include".toList ws⟩ ::
        (⟨l3, .str path⟩ :: ⟨l4, newline⟩ :: (b ++ rest))) st := ha
    have hre := reached_include (env := env) (s2 := ({ s with
          stack := .file p (b ++ rest) :: st
          lastLoc := l1
          output := []
          skins := q :: s.skins } : PP)) ha' hdis (by
        simp only [doInclude, topFile, Option.getD_some, hq]) (by rfl) (by rfl) (by rfl) (by exact hdoc) (by rfl) (by simp)
    obtain ⟨s2, h5⟩ := ih _ rest st hre.pos hr hre.world
      (by rw [isDisabled_of_ifdefs hre.ifdefs, hdis]) hre.docs
    exact ⟨s2, hre.trans h5⟩
  | @script p q room w w' l1 l2 l3 l4 ws path b o hq _ ih =>
    intro s rest st ha hr hw hdis hdoc
    subst hw
    have ha' : At s p (⟨l1, hash⟩ :: ⟨l2, .ident "include".toList ws⟩ ::
        (⟨l3, .str path⟩ :: ⟨l4, newline⟩ :: (b ++ rest))) st := ha
    have hre := reached_include (env := env) (s2 := ({ s with
          stack := .file p (b ++ rest) :: st
          lastLoc := l1
          output := []
          scripts := q :: s.scripts } : PP)) ha' hdis (by
        simp only [doInclude, topFile, Option.getD_some, hq]) (by rfl) (by rfl) (by rfl) (by exact hdoc) (by rfl) (by simp)
    obtain ⟨s2, h5⟩ := ih _ rest st hre.pos hr hre.world
      (by rw [isDisabled_of_ifdefs hre.ifdefs, hdis]) hre.docs
    exact ⟨s2, hre.trans h5⟩
  | @selected p room w w1 w' G first elifs els fin body b o o' hnl hG hwf hsel _ hG1 _ ih1 ih2 =>
    intro s rest st ha hr hw hdis hdoc
    subst hw
    subst hr
    rw [List.append_assoc] at ha
    have hent := conditional_enters env G hnl s p (b ++ rest) st first elifs els fin hwf hG ha hdis hdoc
    rw [hsel] at hent
    obtain ⟨s1, i, remain, g1, g2, g3, g4, g5, g6, g7⟩ := hent
    have hd1 : s1.isDisabled = false := by
      unfold isDisabled
      rw [g4]
      simp only [List.any_cons, g5, Bool.not_true, Bool.false_or]
      exact hdis
    have hw1 : worldOf s1 = worldOf s := by
      have := g3.1
      simp only [PP.world, Prod.mk.injEq] at this
      simp [worldOf, this]
    obtain ⟨s2, k⟩ := ih1 s1 (remain ++ (b ++ rest)) st g2 rfl hw1 hd1 (g3.docsIn.trans hdoc)
    obtain ⟨s3, j1, j2, j3, j4⟩ := leave (env := env) hnl g7 s2 i s.ifdefs k.pos
      (by rw [show s2.defines = (worldOf s2).defs from rfl, k.world]; exact hG1) k.docs
      (k.ifdefs.trans g4) g6
    have hw3 : worldOf s3 = w1 := by
      rw [← k.world]
      have := j3.1
      simp only [PP.world, Prod.mk.injEq] at this
      simp [worldOf, this]
    obtain ⟨n1, m1, m2⟩ := g3.2
    obtain ⟨n2, m3, m4⟩ := j3.2
    obtain ⟨o1, m5, m6⟩ := k.out
    have hre : Reached env s p (b ++ rest) st w1 o s3 := by
      refine ⟨g1.trans (k.steps.trans j1), j2, hw3, j4, j3.docsIn.trans k.docs, ?_, n1 ++ o1 ++ n2, ?_, ?_⟩
      · have h1 := congrArg (·.2.2.2.2.2.2.2.2.2) g3.1
        have h2 := congrArg (·.2.2.2.2.2.2.2.2.2) j3.1
        exact h2.trans (k.panic.trans h1)
      · rw [m4, m5, m2]; simp
      · rw [inline_append, inline_append, inline_newlines m1, inline_newlines m3, m6]; simp
    obtain ⟨s4, h5⟩ := ih2 s3 rest st j2 rfl hw3 (by rw [isDisabled_of_ifdefs j4, hdis]) hre.docs
    exact ⟨s4, hre.trans h5⟩
  | @unselected p room w w' G first elifs els fin b o hnl hG hwf hsel _ ih =>
    intro s rest st ha hr hw hdis hdoc
    subst hw
    subst hr
    rw [List.append_assoc] at ha
    have hent := conditional_enters env G hnl s p (b ++ rest) st first elifs els fin hwf hG ha hdis hdoc
    rw [hsel] at hent
    obtain ⟨s1, g1, g2, g3, g4⟩ := hent
    have hw1 : worldOf s1 = worldOf s := by
      have := g3.1
      simp only [PP.world, Prod.mk.injEq] at this
      simp [worldOf, this]
    obtain ⟨n1, m1, m2⟩ := g3.2
    have hre : Reached env s p (b ++ rest) st (worldOf s) [] s1 :=
      ⟨g1, g2, hw1, g4, g3.docsIn.trans hdoc, congrArg (·.2.2.2.2.2.2.2.2.2) g3.1, n1, m2, by
        rw [inline_newlines m1]; rfl⟩
    obtain ⟨s4, h5⟩ := ih s1 rest st g2 rfl hw1 (by rw [isDisabled_of_ifdefs g4, hdis]) hre.docs
    exact ⟨s4, hre.trans h5⟩

end PP

end Verif.Preproc
