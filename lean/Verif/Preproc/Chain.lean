import Verif.Preproc.Conditional

/-!
# C21: a chain of conditional branches
-/

namespace Verif.Preproc

open Verif.Context (Location)
open Verif.Lexer (Tok Punct DocTarget CommentKind)

/-! ## Specification -/

/-- a branch of a conditional: its `#if`/`#ifdef`/`#ifndef`/`#elif` line, the value of its condition
and the text controlled by it -/
structure Branch where
  line : List LTok
  value : Bool
  body : List LTok

/-- the text of an `#else` part, if there is one -/
def elseText : Option (List LTok × List LTok) → List LTok
  | none => []
  | some (e, body) => e ++ body

/-- the text of a conditional -/
def chainText (bs : List Branch) (els : Option (List LTok × List LTok)) (fin : List LTok) : List LTok :=
  (bs.flatMap fun b => b.line ++ b.body) ++ elseText els ++ fin

/-- the text that is selected: the body of the first branch with a true condition, otherwise that of
the `#else` part, if there is one -/
def selectedText (bs : List Branch) (els : Option (List LTok × List LTok)) : Option (List LTok) :=
  match bs.find? Branch.value with
  | some b => some b.body
  | none => els.map Prod.snd

/-- a conditional at a place where the macros are `defs`: the conditions consist of ordinary tokens
and the bodies have balanced conditionals -/
structure WellFormed (G : Tok → Prop) (env : Env) (defs : DefineMap) (p : Path) (depth : Nat)
    (first : Branch) (elifs : List Branch) (els : Option (List LTok × List LTok)) (fin : List LTok) :
    Prop where
  headLine : Head G env defs p depth first.line first.value
  elifLines : ∀ b ∈ elifs, Elif G env defs p depth b.line b.value
  elseLine : ∀ e body, els = some (e, body) → IsElse e
  endLine : IsEndif fin
  bodies : ∀ b ∈ first :: elifs, Region G false b.body
  elseBody : ∀ e body, els = some (e, body) → Region G false body

namespace PP

theorem Region.append {G : Tok → Prop} {b0 b : Bool} {ts r : List LTok} (h : Region G b0 ts)
    (hb0 : b0 = false) (hr : Region G b r) : Region G b (ts ++ r) := by
  induction h with
  | nil => exact hr
  | tok t ht _ ih => exact .tok t ht (ih hb0)
  | junk l t ht _ ih => exact .junk l t ht (ih hb0)
  | define l1 l2 l3 ws line hl _ ih =>
    have := Region.define l1 l2 l3 ws line hl (ih hb0)
    simpa using this
  | dir l1 l2 ws n hn _ ih => exact .dir l1 l2 ws n hn (ih hb0)
  | block env defs p d v hh hc _ _ ih =>
    have := Region.block env defs p d v hh hc (ih hb0)
    simpa [List.append_assoc] using this
  | else_ => cases hb0
  | elif => cases hb0
  | endif => cases hb0

/-- what follows the selected branch -/
def Closing (G : Tok → Prop) (ts : List LTok) : Prop :=
  IsEndif ts ∨ (∃ e r, IsElse e ∧ Region G true r ∧ ts = e ++ r) ∨
  ∃ env defs p d v h r, Elif G env defs p d h v ∧ Region G true r ∧ ts = h ++ r

theorem Closing.region {G : Tok → Prop} {ts : List LTok} (h : Closing G ts) : Region G true ts := by
  rcases h with h | ⟨e, r, h1, h2, rfl⟩ | ⟨env, defs, p, d, v, h, r, h1, h2, rfl⟩
  · exact .endif h
  · exact .else_ h1 h2
  · exact .elif env defs p d v h1 h2

/-- the branches that follow the selected one are skipped -/
theorem leave {env : Env} {G : Tok → Prop} {p : Path} {st : List Include} {ts rest : List LTok}
    (hnl : ¬ G newline) (hc : Closing G ts) (s : PP) (i : Ifdef) (base : List Ifdef)
    (ha : At s p (ts ++ rest) st) (hG : Ordinary s.defines G) (hdoc : s.docsIn = [])
    (hi : s.ifdefs = i :: base) (hch : i.chainActive = true) :
    ∃ s', Micros env false s s' ∧ At s' p rest st ∧ Skipped s s' ∧ s'.ifdefs = base := by
  rcases hc with h | ⟨e, r, h1, h2, rfl⟩ | ⟨env', defs, q, d, v, h, r, h1, h2, rfl⟩
  · obtain ⟨s1, g1, g2, g3, g4⟩ := step_endif (env := env) h ha hi
    exact ⟨s1, .one g1, g2, g3, g4⟩
  · obtain ⟨s1, l, g1, g2, g3, g4⟩ := step_else (env := env) h1
      (by simpa only [List.append_assoc] using ha) hi
    obtain ⟨s', k1, k2, k3, k4⟩ := skip (env := env) hnl h2 s1 rest base g2 (g3.defines ▸ hG)
      (g3.docsIn.trans hdoc) (by rw [g4]; exact ⟨_, rfl, .inr (by simp [Ifdef.else_, hch])⟩)
    exact ⟨s', .cons g1 k1, k2, g3.trans k3, k4⟩
  · obtain ⟨s1, l, v', g1, g2, g3, g4, -⟩ := step_elif (env := env) h1 hG hnl
      (by simpa only [List.append_assoc] using ha) hdoc hi
    obtain ⟨s', k1, k2, k3, k4⟩ := skip (env := env) hnl h2 s1 rest base g2 (g3.defines ▸ hG)
      (g3.docsIn.trans hdoc) (by rw [g4]; exact ⟨_, rfl, .inr (by simp [Ifdef.elseIf, hch])⟩)
    exact ⟨s', .cons g1 k1, k2, g3.trans k3, k4⟩

/-- the remaining branches, when none was selected so far -/
def tailText (bs : List Branch) (els : Option (List LTok × List LTok)) (fin : List LTok) : List LTok :=
  chainText bs els fin

theorem closing_tail {G : Tok → Prop} {env : Env} {defs : DefineMap} {p : Path} {depth : Nat}
    {els : Option (List LTok × List LTok)} {fin : List LTok}
    (hels : ∀ e body, els = some (e, body) → IsElse e) (hfin : IsEndif fin)
    (heb : ∀ e body, els = some (e, body) → Region G false body) (bs : List Branch)
    (hbs : ∀ b ∈ bs, Elif G env defs p depth b.line b.value) (hb : ∀ b ∈ bs, Region G false b.body) :
    Closing G (chainText bs els fin) := by
  induction bs with
  | nil =>
    cases els with
    | none => left; simpa [chainText, elseText] using hfin
    | some eb =>
      obtain ⟨e, body⟩ := eb
      right; left
      refine ⟨e, body ++ fin, hels e body rfl, Region.append (heb e body rfl) rfl (.endif hfin), ?_⟩
      simp [chainText, elseText]
  | cons b bs ih =>
    right; right
    refine ⟨env, defs, p, depth, b.value, b.line, b.body ++ chainText bs els fin,
      hbs b (by simp), ?_, by simp [chainText]⟩
    exact Region.append (hb b (by simp)) rfl
      (ih (fun b' h => hbs b' (by simp [h])) (fun b' h => hb b' (by simp [h]))).region

/-- Where the reader is after a conditional was entered: at its end if nothing is selected, otherwise
at the beginning of the selected text. -/
def Entered (env : Env) (G : Tok → Prop) (s : PP) (p : Path) (rest : List LTok) (st : List Include)
    (base : List Ifdef) : Option (List LTok) → Prop
  | none => ∃ s', Micros env false s s' ∧ At s' p rest st ∧ Skipped s s' ∧ s'.ifdefs = base
  | some body => ∃ s' i remain, Micros env false s s' ∧ At s' p (body ++ (remain ++ rest)) st ∧
      Skipped s s' ∧ s'.ifdefs = i :: base ∧ i.active = true ∧ i.chainActive = true ∧ Closing G remain

theorem Entered.after {env : Env} {G : Tok → Prop} {s s1 : PP} {p : Path} {rest : List LTok}
    {st : List Include} {base : List Ifdef} {o : Option (List LTok)} (h : Micros env false s s1)
    (hsk : Skipped s s1) (he : Entered env G s1 p rest st base o) : Entered env G s p rest st base o := by
  cases o with
  | none =>
    obtain ⟨s', h1, h2, h3, h4⟩ := he
    exact ⟨s', h.trans h1, h2, hsk.trans h3, h4⟩
  | some body =>
    obtain ⟨s', i, remain, h1, h2, h3, h4⟩ := he
    exact ⟨s', i, remain, h.trans h1, h2, hsk.trans h3, h4⟩

theorem enter_tail {env : Env} {G : Tok → Prop} {p : Path} {st : List Include} {rest : List LTok}
    (hnl : ¬ G newline) {els : Option (List LTok × List LTok)} {fin : List LTok} {defs : DefineMap}
    (hels : ∀ e body, els = some (e, body) → IsElse e) (hfin : IsEndif fin)
    (heb : ∀ e body, els = some (e, body) → Region G false body) (base : List Ifdef)
    (hbase : dis base = false) (hG : Ordinary defs G) (bs : List Branch)
    (hbs : ∀ b ∈ bs, Elif G env defs p (32 - st.length) b.line b.value)
    (hb : ∀ b ∈ bs, Region G false b.body) :
    ∀ (s : PP) (i : Ifdef), At s p (chainText bs els fin ++ rest) st → s.defines = defs →
      s.docsIn = [] → s.ifdefs = i :: base → i.chainActive = false →
      Entered env G s p rest st base (selectedText bs els) := by
  induction bs with
  | nil =>
    intro s i ha hdf hdoc hi hch
    cases els with
    | none =>
      obtain ⟨s1, g1, g2, g3, g4⟩ := step_endif (env := env) hfin
        (by simpa [chainText, elseText] using ha) hi
      exact ⟨s1, .one g1, g2, g3, g4⟩
    | some eb =>
      obtain ⟨e, body⟩ := eb
      obtain ⟨s1, l, g1, g2, g3, g4⟩ := step_else (env := env) (hels e body rfl)
        (ts := body ++ (fin ++ rest)) (by simpa [chainText, elseText] using ha) hi
      exact ⟨s1, _, fin, .one g1, g2, g3, g4, by simp [Ifdef.else_, hch], rfl, .inl hfin⟩
  | cons b bs ih =>
    intro s i ha hdf hdoc hi hch
    have hbs' := fun b' h => hbs b' (List.mem_cons_of_mem b h)
    have hb' := fun b' h => hb b' (List.mem_cons_of_mem b h)
    obtain ⟨s1, l, v', g1, g2, g3, g4, g5⟩ := step_elif (env := env) (hbs b (by simp)) (hdf ▸ hG) hnl
      (ts := b.body ++ (chainText bs els fin ++ rest)) (by simpa [chainText] using ha) hdoc hi
    have hv : v' = b.value := g5 hbase rfl hdf.symm rfl rfl
    rw [hv] at g4
    cases hbv : b.value with
    | true =>
      have : selectedText (b :: bs) els = some b.body := by simp [selectedText, hbv]
      rw [this]
      exact ⟨s1, _, chainText bs els fin, .one g1, g2, g3, g4, by simp [Ifdef.elseIf, hch, hbv],
        by simp [Ifdef.elseIf, hbv], closing_tail hels hfin heb bs hbs' hb'⟩
    | false =>
      have : selectedText (b :: bs) els = selectedText bs els := by simp [selectedText, hbv]
      rw [this]
      obtain ⟨s2, k1, k2, k3, k4⟩ := skip (env := env) hnl (hb b (by simp)) s1 _ s1.ifdefs g2
        (g3.defines ▸ hdf ▸ hG) (g3.docsIn.trans hdoc)
        ⟨rfl, by rw [g4]; simp [dis, Ifdef.elseIf, hbv]⟩
      have hsk := g3.trans k3
      refine Entered.after (.cons g1 k1) hsk (ih hbs' hb' s2 _ k2 (hsk.defines.trans hdf)
        (hsk.docsIn.trans hdoc) (k4.trans g4) ?_)
      simp [Ifdef.elseIf, hch, hbv]

/-- **C21, control flow.** Reading a conditional at an active nesting level: everything up to the
selected text is skipped — nothing is defined, undefined, included or reported to the outside, and only
newlines are emitted — and the selected text is entered, active.  If no text is selected the whole
conditional is skipped. -/
theorem conditional_enters (env : Env) (G : Tok → Prop) (hnl : ¬ G newline) (s : PP) (p : Path)
    (rest : List LTok) (st : List Include) (first : Branch) (elifs : List Branch)
    (els : Option (List LTok × List LTok)) (fin : List LTok)
    (hw : WellFormed G env s.defines p (32 - st.length) first elifs els fin)
    (hG : Ordinary s.defines G) (ha : At s p (chainText (first :: elifs) els fin ++ rest) st)
    (hact : s.isDisabled = false) (hdoc : s.docsIn = []) :
    Entered env G s p rest st s.ifdefs (selectedText (first :: elifs) els) := by
  obtain ⟨s1, i, g1, g2, g3, g4, g5⟩ := step_head (env := env) hw.headLine hG hnl
    (ts := first.body ++ (chainText elifs els fin ++ rest)) (by simpa [chainText] using ha) hdoc
  obtain ⟨hi1, hi2⟩ := g5 hact rfl rfl rfl rfl
  have hb' := fun b' h => hw.bodies b' (List.mem_cons_of_mem first h)
  cases hbv : first.value with
  | true =>
    have : selectedText (first :: elifs) els = some first.body := by simp [selectedText, hbv]
    rw [this]
    exact ⟨s1, _, chainText elifs els fin, .one g1, g2, g3, g4, hi1.trans hbv, hi2.trans hbv,
      closing_tail hw.elseLine hw.endLine hw.elseBody elifs hw.elifLines hb'⟩
  | false =>
    have : selectedText (first :: elifs) els = selectedText elifs els := by simp [selectedText, hbv]
    rw [this]
    obtain ⟨s2, k1, k2, k3, k4⟩ := skip (env := env) hnl (hw.bodies first (by simp)) s1 _ s1.ifdefs g2
      (g3.defines ▸ hG) (g3.docsIn.trans hdoc)
      ⟨rfl, by rw [g4]; simp [dis, hi1, hbv]⟩
    have hsk := g3.trans k3
    exact Entered.after (.cons g1 k1) hsk (enter_tail hnl hw.elseLine hw.endLine hw.elseBody s.ifdefs hact hG elifs
      hw.elifLines hb' s2 _ k2 hsk.defines (hsk.docsIn.trans hdoc) (k4.trans g4) (hi2.trans hbv))

/-- **C21, leaving.** After the selected text — whatever it did to the macros — the other branches and
the `#endif` are skipped: only newlines are emitted, nothing is executed, and the nesting level is the
one outside the conditional. -/
theorem conditional_leaves (env : Env) (G : Tok → Prop) (hnl : ¬ G newline) (s : PP) (p : Path)
    (rest remain : List LTok) (st : List Include) (i : Ifdef) (base : List Ifdef)
    (hc : Closing G remain) (hG : Ordinary s.defines G) (ha : At s p (remain ++ rest) st)
    (hi : s.ifdefs = i :: base) (hact : i.chainActive = true) (hdoc : s.docsIn = []) :
    ∃ s', Micros env false s s' ∧ At s' p rest st ∧ Skipped s s' ∧ s'.ifdefs = base :=
  leave hnl hc s i base ha hG hdoc hi hact

/-- **C21, disabled regions.** Inside an inactive branch any text with balanced conditionals emits
nothing but newlines and executes nothing. -/
theorem disabled_region_silent (env : Env) (G : Tok → Prop) (hnl : ¬ G newline) (s : PP) (p : Path)
    (ts rest : List LTok) (st : List Include) (hr : Region G false ts) (hG : Ordinary s.defines G)
    (ha : At s p (ts ++ rest) st) (hdis : s.isDisabled = true) (hdoc : s.docsIn = []) :
    ∃ s', Micros env false s s' ∧ At s' p rest st ∧ Skipped s s' ∧ s'.ifdefs = s.ifdefs :=
  skip hnl hr s rest s.ifdefs ha hG hdoc ⟨rfl, hdis⟩

/-- the expansion of the selected text -/
def emitted (env : Env) (defs : DefineMap) (p : Path) (depth : Nat) : Option (List LTok) → List LTok
  | none => []
  | some body => (expandToks defs (env.pathText p) false depth ⟨[], []⟩ body).out

theorem Micros.world {s s' : PP} {st e} (h : Moved s st e s') (hd : e.docs = s.docsIn) :
    s'.world = s.world ∧ s'.ifdefs = s.ifdefs := by
  obtain ⟨-, _, h⟩ := h
  rw [h]
  simp [PP.world, hd]

/-- **C21.** A conditional at an active nesting level whose bodies are ordinary text (object-like
macros): what is delivered is, up to newlines, exactly the expansion of the selected text followed by
what the rest of the file delivers; and the rest is read in a state with the same macros, history,
files and nesting level. -/
theorem conditional_selects (env : Env) (G B : Tok → Prop) (hnl : ¬ G newline) (s : PP) (p : Path)
    (rest : List LTok) (st : List Include) (first : Branch) (elifs : List Branch)
    (els : Option (List LTok × List LTok)) (fin : List LTok)
    (hw : WellFormed G env s.defines p (32 - st.length) first elifs els fin)
    (hG : Ordinary s.defines G) (hB : Ordinary s.defines B)
    (hsel : ∀ body, selectedText (first :: elifs) els = some body → ∀ t ∈ body, B t.tok)
    (hs : s.stack = .file p (chainText (first :: elifs) els fin ++ rest) :: st)
    (hact : s.isDisabled = false) (hdoc : s.docsIn = []) (hout : s.output = []) :
    ∃ (s' : PP) (nls nls' : List LTok), (∀ t ∈ nls ++ nls', t.tok = newline) ∧
      s'.stack = .file p rest :: st ∧ s'.output = [] ∧ s'.world = s.world ∧ s'.ifdefs = s.ifdefs ∧
      ∀ n r s'', s'.run env n = .ok (r, s'') → ∃ m, s.run env m =
        .ok (nls ++ emitted env s.defines p (32 - st.length) (selectedText (first :: elifs) els) ++
          nls' ++ r, s'') := by
  have hent := conditional_enters env G hnl s p rest st first elifs els fin hw hG (by rw [At, hs]) hact hdoc
  have fin : ∀ (s3 : PP) (A : List LTok), Micros env false s s3 → At s3 p rest st →
      s3.output = A → ∀ n r s'', ({ s3 with
        stack := .file p rest :: st
        output := [] } : PP).run env n = .ok (r, s'') → ∃ m, s.run env m = .ok (A ++ r, s'') := by
    intro s3 A h1 h2 h3 n r s'' hr
    apply h1.run (n := n)
    apply run_stack h2
    rw [← run_output (A := A) rfl hr]
    rw [← h3]
  cases hsel' : selectedText (first :: elifs) els with
  | none =>
    rw [hsel'] at hent
    obtain ⟨s3, h1, h2, ⟨h3, nls, h4, h5⟩, h6⟩ := hent
    refine ⟨{ s3 with
        stack := .file p rest :: st
        output := [] }, nls, [], by simpa using h4, rfl, rfl, h3, h6, ?_⟩
    intro n r s'' hr
    simpa [emitted] using fin s3 nls h1 h2 (by rw [h5, hout]; rfl) n r s'' hr
  | some body =>
    rw [hsel'] at hent
    obtain ⟨s1, i, remain, h1, h2, ⟨h3, nls, h4, h5⟩, h6, h7, h8, h9⟩ := hent
    have hdef1 : s1.defines = s.defines := congrArg (·.1) h3
    have hdoc1 : s1.docsIn = [] := (congrArg (·.2.2.2.2.2.2.2.2.1) h3).trans hdoc
    have hdis1 : s1.isDisabled = false := by
      unfold isDisabled
      rw [h6]
      simp only [List.any_cons, h7, Bool.not_true, Bool.false_or]
      exact hact
    obtain ⟨s2, k1, k2⟩ := file_steps (env := env) (cond := false) (hdef1 ▸ hB) (by simp) p
      (remain ++ rest) st body s1 (hsel body hsel') rfl (.inr hdis1) (fun _ => hdoc1) h2
    have hed := expandToks_docs s1.defines (env.pathText p) false (32 - st.length) body
      ⟨s1.output, s1.docsIn⟩ hdoc1
    obtain ⟨hw2, hi2⟩ := Micros.world k2 (hed.trans hdoc1.symm)
    obtain ⟨s3, g1, g2, ⟨g3, nls', g4, g5⟩, g6⟩ := conditional_leaves env G hnl s2 p rest remain st i
      s.ifdefs h9 (k2.defines.symm ▸ hdef1 ▸ hG) k2.stack (hi2.trans h6) h8 (k2.docsIn.trans hed)
    have hpre : ∀ (a : Nat) (A : List LTok) (e : Emit) (t : LTok),
        expandTok s.defines (env.pathText p) false a ⟨A ++ e.out, e.docs⟩ t =
        ⟨A ++ (expandTok s.defines (env.pathText p) false a e t).out,
          (expandTok s.defines (env.pathText p) false a e t).docs⟩ := by
      intro a
      induction a with
      | zero => intro A e t; exact Emit.put_pre A e _
      | succ a ih =>
        intro A e t
        have hmac : ∀ o, macroOf s.defines false o t.tok = macroOf s.defines false [] t.tok := by
          intro o; unfold macroOf; rfl
        unfold expandTok
        simp only [hmac]
        split
        · rename_i su _
          have : ∀ (l : List LTok) (e : Emit), l.foldl (expandTok s.defines (env.pathText p) false a)
              ⟨A ++ e.out, e.docs⟩ = ⟨A ++ (l.foldl (expandTok s.defines (env.pathText p) false a) e).out,
                (l.foldl (expandTok s.defines (env.pathText p) false a) e).docs⟩ := by
            intro l
            induction l with
            | nil => intro e; rfl
            | cons x l ihl =>
              intro e
              simp only [List.foldl_cons]
              rw [ih, ← ihl]
          rw [← this]
          simp [Emit.flush]
        · exact Emit.put_pre A e _
    have hpre' : ∀ (l : List LTok) (A : List LTok) (e : Emit),
        (expandToks s.defines (env.pathText p) false (32 - st.length) ⟨A ++ e.out, e.docs⟩ l).out =
        A ++ (expandToks s.defines (env.pathText p) false (32 - st.length) e l).out := by
      intro l
      induction l with
      | nil => intro A e; rfl
      | cons x l ihl =>
        intro A e
        simp only [expandToks, List.foldl_cons] at ihl ⊢
        rw [hpre, ← ihl]
    have hso : s2.output = nls ++
        (expandToks s.defines (env.pathText p) false (32 - st.length) ⟨[], []⟩ body).out := by
      rw [k2.output, hdef1, h5, hout, hdoc1]
      have := hpre' body nls ⟨[], []⟩
      simpa using this
    refine ⟨{ s3 with
        stack := .file p rest :: st
        output := [] }, nls, nls', ?_, rfl, rfl, (g3.trans hw2).trans h3, g6, ?_⟩
    · intro t ht
      rcases List.mem_append.1 ht with ht | ht
      · exact h4 t ht
      · exact g4 t ht
    · intro n r s'' hr
      have := fin s3 (s2.output ++ nls') (h1.trans (k1.trans g1)) g2 g5 n r s'' hr
      simpa [hso, emitted] using this

end PP

/-! ## A concrete case -/

/-- `#if A` with `A` defined as `0` — `x` — `#elif 7` — `#define B`, `y` — `#else` — `z` — `#endif` -/
def demoFirst : Branch := ⟨[hsh 1, dirTok (at_ 1) false "if", idt 1 "C", nlt 1], false, [idt 2 "x", nlt 2]⟩
/-- the `#elif` part -/
def demoElif : Branch := ⟨[hsh 3, dirTok (at_ 3) false "elif", intt 3 7, nlt 3], true, [idt 4 "A", nlt 4]⟩
/-- the `#else` part: contains a directive and a nested conditional -/
def demoElse : List LTok × List LTok :=
  ([hsh 5, dirTok (at_ 5) false "else"],
   [nlt 5, hsh 6, dirTok (at_ 6) false "define", idt 6 "B", intt 6 3, nlt 6,
    hsh 7, dirTok (at_ 7) false "ifdef", idt 7 "B", nlt 7, hsh 8, dirTok (at_ 8) false "endif", nlt 8])
/-- the `#endif` -/
def demoEnd : List LTok := [hsh 9, dirTok (at_ 9) false "endif"]

/-- `#define A 1 B`, `#define B 2`, `#define C 0` -/
def demoDefs2 : DefineMap := ⟨(['C'], [(at_ 1, .constant [.int 0])]) :: demoDefs.inner⟩

/-- the tokens of the conditions -/
def demoG2 (t : Tok) : Prop := t ∈ [Tok.int 0, .int 7, .ident ['C'] false]
/-- the tokens of the bodies -/
def demoB2 (t : Tok) : Prop :=
  t ∈ [Tok.int 1, .int 2, .ident ['A'] false, .ident ['B'] false, .ident ['x'] false, newline]

theorem demo_ordinary_G2 : Ordinary demoDefs2 demoG2 where
  hash := by unfold demoG2; decide +kernel
  doc := by simp [demoG2]
  ibegin := by simp [demoG2]
  iend := by simp [demoG2]
  fn := by
    intro n ws h l ps su v
    simp [demoG2] at h
    rcases h with ⟨rfl, rfl⟩
    simp [DefineMap.get, DefineMap.find, demoDefs2, demoDefs, DefineMap.lookup_cons']
  sub := by
    intro n ws h l su hg
    simp [demoG2] at h
    rcases h with ⟨rfl, rfl⟩
    simp [DefineMap.get, DefineMap.find, demoDefs2, demoDefs, DefineMap.lookup_cons'] at hg
    obtain ⟨-, rfl⟩ := hg
    simp [demoG2]

theorem demo_ordinary_B2 : Ordinary demoDefs2 demoB2 where
  hash := by unfold demoB2; decide +kernel
  doc := by simp [demoB2, newline]
  ibegin := by simp [demoB2, newline]
  iend := by simp [demoB2, newline]
  fn := by
    intro n ws h l ps su v
    simp [demoB2, newline] at h
    rcases h with ⟨rfl, rfl⟩ | ⟨rfl, rfl⟩ | ⟨rfl, rfl⟩ <;>
      simp [DefineMap.get, DefineMap.find, demoDefs2, demoDefs, DefineMap.lookup_cons']
  sub := by
    intro n ws h l su hg
    simp [demoB2, newline] at h
    rcases h with ⟨rfl, rfl⟩ | ⟨rfl, rfl⟩ | ⟨rfl, rfl⟩ <;>
      simp [DefineMap.get, DefineMap.find, demoDefs2, demoDefs, DefineMap.lookup_cons'] at hg <;>
      obtain ⟨-, rfl⟩ := hg <;> simp [demoB2]

theorem demo_wellFormed :
    WellFormed demoG2 demoEnv demoDefs2 0 32 demoFirst [demoElif] (some demoElse) demoEnd where
  headLine := by
    have := Head.if_ (G := demoG2) (env := demoEnv) (defs := demoDefs2) (p := 0) (depth := 32)
      (at_ 1) (at_ 1) (at_ 1) false [idt 1 "C"] (by simp [demoG2, idt])
    rwa [show condValue demoEnv demoDefs2 0 32 [idt 1 "C"] = false by decide +kernel] at this
  elifLines := by
    intro b hb
    simp only [List.mem_singleton] at hb
    subst hb
    have := Elif.mk (G := demoG2) (env := demoEnv) (defs := demoDefs2) (p := 0) (depth := 32)
      (at_ 3) (at_ 3) (at_ 3) false [intt 3 7] (by simp [demoG2, intt])
    rwa [show condValue demoEnv demoDefs2 0 32 [intt 3 7] = true by decide +kernel] at this
  elseLine := by
    intro e body h
    simp only [demoElse, Option.some.injEq, Prod.mk.injEq] at h
    exact ⟨_, _, _, h.1.symm⟩
  endLine := ⟨_, _, _, rfl⟩
  bodies := by
    intro b hb
    simp only [List.mem_cons, List.not_mem_nil, or_false] at hb
    rcases hb with rfl | rfl
    · exact .tok _ (by simp [idt, hash]) (.tok _ (by simp [nlt, hash, newline]) .nil)
    · exact .tok _ (by simp [idt, hash]) (.tok _ (by simp [nlt, hash, newline]) .nil)
  elseBody := by
    intro e body h
    simp only [demoElse, Option.some.injEq, Prod.mk.injEq] at h
    obtain ⟨-, rfl⟩ := h
    refine .tok _ (by simp [nlt, hash, newline]) ?_
    refine .define (at_ 6) (at_ 6) (at_ 6) false [idt 6 "B", intt 6 3] (by simp [idt, intt, newline]) ?_
    exact .block demoEnv demoDefs2 0 32 _ (.ifdef (at_ 7) (at_ 7) (at_ 7) (at_ 7) false false ['B'])
      (.endif ⟨at_ 8, at_ 8, false, rfl⟩) (.tok (nlt 8) (by simp [nlt, hash, newline]) .nil)

/-- the conditional of the example delivers, up to newlines, `1 2`; the run ends -/
example : ∃ nls nls' m s'', (∀ t ∈ nls ++ nls', t.tok = newline) ∧
    (PP.init demoEnv demoDefs2
      (chainText [demoFirst, demoElif] (some demoElse) demoEnd)).run demoEnv m =
    .ok (nls ++ [intt 4 1, intt 4 2, nlt 4] ++ nls', s'') := by
  obtain ⟨s', nls, nls', h1, h2, h0, -, h3, h4⟩ := PP.conditional_selects demoEnv demoG2 demoB2
    (by simp [demoG2, newline])
    (PP.init demoEnv demoDefs2 (chainText [demoFirst, demoElif] (some demoElse) demoEnd)) 0 [] []
    demoFirst [demoElif] (some demoElse) demoEnd demo_wellFormed demo_ordinary_G2 demo_ordinary_B2
    (by
      intro body hb t ht
      have : body = [idt 4 "A", nlt 4] := by
        have h : selectedText [demoFirst, demoElif] (some demoElse) = some [idt 4 "A", nlt 4] := rfl
        rw [h] at hb
        exact (Option.some.inj hb).symm
      subst this
      simp only [List.mem_cons, List.not_mem_nil, or_false] at ht
      rcases ht with rfl | rfl <;> simp [demoB2, idt, nlt])
    (by simp [PP.init, demoEnv]) rfl rfl rfl
  have h5 : ∃ r, s'.run demoEnv 1 = .ok ([], r) := by
    unfold PP.run
    have : ({ s' with output := [] } : PP).innerNext = none := by
      simp [PP.innerNext, h2, stackNext]
    rw [this]
    exact ⟨_, by rw [h0]⟩
  obtain ⟨r, hr⟩ := h5
  obtain ⟨m, hm⟩ := h4 1 [] r hr
  refine ⟨nls, nls', m, r, h1, ?_⟩
  rw [List.append_nil] at hm
  exact hm

/-! ## Where the program does not do what one expects

The theorems above ask for conditions without function-like macros.  This is needed: a name of a
function-like macro that is not called, at the end of an `#if` line, swallows the end of the line. -/

/-- `#if F` with `#define F(x) x`: the condition read is `F`, newline and all of the next line -/
def swallow : List LTok :=
  [hsh 1, idt 1 "if", intt 1 1, idt 1 "F", nlt 1, idt 2 "x", nlt 2, idt 3 "y", nlt 3, hsh 4, idt 4 "endif"]

/-- the macros for `swallow` -/
def swallowDefs : DefineMap := ⟨[(['F'], [(at_ 1, .function [['x']] [.ident ['x'] false] false)])]⟩

/-- The text `x` of line 2 is part of the condition that is evaluated, and lost. -/
theorem condition_swallows_next_line :
    ∃ s', (PP.pump demoEnv 20 { stack := [.file 0 (swallow.drop 2)], defines := swallowDefs } : Res) =
        .ok s' ∧ s'.output.map LTok.tok = [.int 1, .ident ['F'] false, newline, .ident ['x'] false] ∧
      s'.stack = [.file 0 (swallow.drop 7)] := by
  refine ⟨_, rfl, ?_, ?_⟩ <;> decide +kernel

/-- Doc comments in front of an `#if` are fed to the condition (and dropped from the output), because
the condition's tokens are collected in the output queue, into which waiting doc comments are flushed. -/
theorem condition_takes_docs :
    ∃ s', (PP.pump demoEnv 20 { stack := [.file 0 [idt 1 "x", nlt 1]]
                                docsIn := [⟨at_ 0, .doc .block .followingItem []⟩] } : Res) =
        .ok s' ∧ s'.output.map LTok.tok = [.doc .block .followingItem [], .ident ['x'] false] ∧
      s'.docsIn = [] := by
  refine ⟨_, rfl, ?_, ?_⟩ <;> decide +kernel

end Verif.Preproc
