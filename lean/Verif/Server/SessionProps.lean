import Verif.Server.SessionModel

/-!
# C106, C107: what the answers of the language server are computed from
-/

namespace Verif.Session

open Verif.Langserver

variable {U D T : Type} [DecidableEq U]

/-! ## Specification -/

/-- the text of a document as the client sees it -/
def Engine.contents (e : Engine U D) (u : U) (disk : Option (List Char)) : Option (List Char) :=
  match e.docs u with
  | some doc => some doc.text
  | none => disk

/-- `m` edits `u` -/
def Edits (u : U) : Msg U D → Prop
  | .changed v _ _ => v = u
  | .closed v => v = u
  | _ => False

/-- `m` opens or changes `u` -/
def Writes (u : U) : Msg U D → Prop
  | .opened v _ _ => v = u
  | .changed v _ _ => v = u
  | _ => False

/-- `m` asks about `u` -/
def Asks (u : U) : Msg U D → Prop
  | .ask v _ => v = u
  | _ => False

/-- an environment is parsed successfully -/
def Parses : Msg U D → Prop
  | .parse (some _) => True
  | _ => False

/-- the last environment parsed in a session -/
def lastParsed (ms : List (Msg U D)) : Option D :=
  (ms.filterMap fun m => match m with | .parse d => d | _ => none).getLast?

/-- what holds whenever a message comes in: the state it meets and the message are in `R` -/
def Always (e : Engine U D) (ms : List (Msg U D)) (R : Engine U D → Msg U D → Prop) : Prop :=
  ∀ a m b e', ms = a ++ m :: b → e.run a = some e' → R e' m

/-- A client that keeps to the protocol with `u`: it is opened once, its changes are good, and it is asked about while it is open. -/
def Orderly (e : Engine U D) (ms : List (Msg U D)) (u : U) : Prop :=
  Always e ms fun e' m => (Writes u m → ∃ e'', e'.step m = some (e'', true)) ∧ (Asks u m → (e'.docs u).isSome = true)

/-! ## Sessions -/

theorem run_append (e : Engine U D) (a b : List (Msg U D)) : e.run (a ++ b) = (e.run a).bind fun e' => e'.run b := by
  induction a generalizing e with
  | nil => rfl
  | cons m a ih =>
    simp only [List.cons_append, Engine.run]
    cases e.step m with
    | none => rfl
    | some r => exact ih r.1

theorem run_snoc {e e' : Engine U D} {ms : List (Msg U D)} {m : Msg U D} (h : e.run (ms ++ [m]) = some e') :
    ∃ e1 ok, e.run ms = some e1 ∧ e1.step m = some (e', ok) := by
  rw [run_append, Option.bind_eq_some_iff] at h
  obtain ⟨e1, h1, h2⟩ := h
  simp only [Engine.run, Option.bind_eq_some_iff] at h2
  obtain ⟨⟨x, ok⟩, h2, h3⟩ := h2
  cases h3
  exact ⟨e1, ok, h1, h2⟩

theorem Always.init {e : Engine U D} {ms : List (Msg U D)} {m : Msg U D} {R : Engine U D → Msg U D → Prop}
    (h : Always e (ms ++ [m]) R) : Always e ms R := by
  intro a x b e' he
  exact h a x (b ++ [m]) e' (by rw [he]; simp)

theorem getAnnotations_frame (e : Engine U D) (u : U) (disk : Option (List Char)) :
    (e.getAnnotations u disk).1.root = e.root ∧ (e.getAnnotations u disk).1.docs = e.docs ∧
      (e.getAnnotations u disk).1.defines = e.defines ∧
      ∀ v, v ≠ u → (e.getAnnotations u disk).1.annotations v = e.annotations v := by
  unfold Engine.getAnnotations
  split
  · exact ⟨rfl, rfl, rfl, fun _ _ => rfl⟩
  · split
    · split
      · exact ⟨rfl, rfl, rfl, fun _ _ => rfl⟩
      · split
        · exact ⟨rfl, rfl, rfl, fun _ _ => rfl⟩
        · exact ⟨rfl, rfl, rfl, fun v hv => if_neg hv⟩
    · split <;> exact ⟨rfl, rfl, rfl, fun _ _ => rfl⟩

/-- what an answer is made from: kept from before, or made now -/
theorem getAnnotations_cases (e : Engine U D) (u : U) (disk : Option (List Char)) :
    (∃ d t, e.annotations u = some (d, t) ∧ e.getAnnotations u disk = (e, some (.within d t))) ∨
    (e.annotations u = none ∧ e.root = true ∧ ∃ d t, e.defines = some d ∧ e.contents u disk = some t ∧
      (e.getAnnotations u disk).1.annotations u = some (d, t) ∧ (e.getAnnotations u disk).2 = some (.within d t)) ∨
    (e.annotations u = none ∧ e.root = true ∧ (e.defines = none ∨ e.contents u disk = none) ∧
      e.getAnnotations u disk = (e, none)) ∨
    (e.annotations u = none ∧ e.root = false ∧ e.getAnnotations u disk = (e, (e.contents u disk).map .alone)) := by
  unfold Engine.getAnnotations Engine.contents
  cases ha : e.annotations u with
  | some x => exact .inl ⟨x.1, x.2, rfl, rfl⟩
  | none =>
    right
    cases hr : e.root with
    | true =>
      cases hd : e.defines with
      | none => exact .inr (.inl ⟨rfl, rfl, .inl rfl, rfl⟩)
      | some d =>
        cases hc : e.docs u with
        | some doc => exact .inl ⟨rfl, rfl, d, doc.text, rfl, rfl, by simp, rfl⟩
        | none =>
          cases disk with
          | some t => exact .inl ⟨rfl, rfl, d, t, rfl, rfl, by simp, rfl⟩
          | none => exact .inr (.inl ⟨rfl, rfl, .inr rfl, rfl⟩)
    | false =>
      refine .inr (.inr ⟨rfl, rfl, ?_⟩)
      cases hc : e.docs u with
      | some doc => rfl
      | none => cases disk <;> rfl

theorem step_root {e e' : Engine U D} {m : Msg U D} {ok : Bool} (h : e.step m = some (e', ok)) : e'.root = e.root := by
  cases m with
  | opened u v t => cases h; rfl
  | changed u v cs =>
    simp only [Engine.step] at h
    split at h
    · cases h
    · split at h <;> cases h <;> rfl
  | closed u =>
    simp only [Engine.step] at h
    split at h <;> cases h <;> rfl
  | parse d => cases d <;> cases h <;> rfl
  | ask u disk => cases h; exact (getAnnotations_frame e u disk).1

theorem run_root {e e' : Engine U D} {ms : List (Msg U D)} (h : e.run ms = some e') : e'.root = e.root := by
  induction ms generalizing e with
  | nil => cases h; rfl
  | cons m ms ih =>
    simp only [Engine.run, Option.bind_eq_some_iff] at h
    obtain ⟨⟨x, ok⟩, h1, h2⟩ := h
    exact (ih h2).trans (step_root h1)

theorem step_defines {e e' : Engine U D} {m : Msg U D} {ok : Bool} (h : e.step m = some (e', ok)) (hm : ¬ Parses m) :
    e'.defines = e.defines := by
  cases m with
  | opened u v t => cases h; rfl
  | changed u v cs =>
    simp only [Engine.step] at h
    split at h
    · cases h
    · split at h <;> cases h <;> rfl
  | closed u =>
    simp only [Engine.step] at h
    split at h <;> cases h <;> rfl
  | parse d => cases d with
    | none => cases h; rfl
    | some d => exact absurd trivial hm
  | ask u disk => cases h; exact (getAnnotations_frame e u disk).2.2.1

theorem run_defines {e e' : Engine U D} {ms : List (Msg U D)} (h : e.run ms = some e') (hm : ∀ m ∈ ms, ¬ Parses m) :
    e'.defines = e.defines := by
  induction ms generalizing e with
  | nil => cases h; rfl
  | cons m ms ih =>
    simp only [Engine.run, Option.bind_eq_some_iff] at h
    obtain ⟨⟨x, ok⟩, h1, h2⟩ := h
    exact (ih h2 fun m hm' => hm m (List.mem_cons_of_mem _ hm')).trans (step_defines h1 (hm m List.mem_cons_self))

theorem defines_last {r : Bool} {ms : List (Msg U D)} {e : Engine U D} (h : (Engine.new r).run ms = some e) :
    e.defines = lastParsed ms := by
  induction ms using List.reverseRecOn generalizing e with
  | nil => cases h; rfl
  | append_singleton ms m ih =>
    obtain ⟨e0, ok, h1, h2⟩ := run_snoc h
    have ih := ih h1
    unfold lastParsed at ih ⊢
    rw [List.filterMap_append]
    have hn : ¬ Parses m → e.defines = (List.filterMap (fun m => match m with | .parse d => d | _ => none) ms ++
        List.filterMap (fun m => match m with | .parse d => d | _ => none) [m]).getLast? := by
      intro hm
      rw [step_defines h2 hm, ih]
      cases m with
      | parse d => cases d with
        | none => simp
        | some d => exact absurd trivial hm
      | _ => simp
    cases m with
    | parse d => cases d with
      | none => exact hn fun h => h
      | some d => cases h2; simp
    | _ => exact hn fun h => h

/-- a message leaves the annotations of a document, unless it is an accepted edit, or asks about it -/
theorem step_annotations {e e' : Engine U D} {m : Msg U D} {ok : Bool} {u : U} (h : e.step m = some (e', ok)) (ha : ¬ Asks u m) :
    e'.annotations u = e.annotations u ∨ (Edits u m ∧ ok = true ∧ e'.annotations u = none) := by
  cases m with
  | opened v w t => cases h; exact .inl rfl
  | changed v w cs =>
    simp only [Engine.step] at h
    split at h
    · cases h
    · rename_i docs okay _
      split at h
      · rename_i hok
        cases h
        by_cases hv : u = v
        · exact .inr ⟨hv.symm, hok, if_pos hv⟩
        · exact .inl (if_neg hv)
      · cases h; exact .inl rfl
  | closed v =>
    simp only [Engine.step] at h
    split at h
    · rename_i hok
      cases h
      by_cases hv : u = v
      · exact .inr ⟨hv.symm, hok, if_pos hv⟩
      · exact .inl (if_neg hv)
    · cases h; exact .inl rfl
  | parse d => cases d <;> cases h <;> exact .inl rfl
  | ask v disk =>
    cases h
    exact .inl ((getAnnotations_frame e v disk).2.2.2 u fun hv => ha hv.symm)

theorem made_from_state {r : Bool} {ms : List (Msg U D)} {e : Engine U D} (h : (Engine.new r).run ms = some e) {u : U} {d : D}
    {t : List Char} (hc : e.annotations u = some (d, t)) :
    ∃ a disk b e1, ms = a ++ .ask u disk :: b ∧ (Engine.new r).run a = some e1 ∧ e1.defines = some d ∧
      e1.contents u disk = some t ∧
      ∀ x m y e2, b = x ++ m :: y → (Engine.new r).run (a ++ .ask u disk :: x) = some e2 → Edits u m →
        ∃ e3, e2.step m = some (e3, false) := by
  induction ms using List.reverseRecOn generalizing e with
  | nil => cases h; cases hc
  | append_singleton ms m ih =>
    obtain ⟨e0, ok, h1, h2⟩ := run_snoc h
    -- the annotations were there before, and the message is no accepted edit
    have keep : e0.annotations u = some (d, t) → (Edits u m → ok = false) → ∃ a disk b e1, ms ++ [m] = a ++ .ask u disk :: b ∧
        (Engine.new r).run a = some e1 ∧ e1.defines = some d ∧ e1.contents u disk = some t ∧
        ∀ x m y e2, b = x ++ m :: y → (Engine.new r).run (a ++ .ask u disk :: x) = some e2 → Edits u m →
          ∃ e3, e2.step m = some (e3, false) := by
      intro h0 hm
      obtain ⟨a, disk, b, e1, i1, i2, i3, i4, i5⟩ := ih h1 h0
      refine ⟨a, disk, b ++ [m], e1, by rw [i1]; simp, i2, i3, i4, ?_⟩
      intro x m' y e2 hb he2 hed
      rcases List.eq_nil_or_concat y with rfl | ⟨y', z, rfl⟩
      · have hb' : b ++ [m] = x ++ [m'] := hb
        obtain ⟨rfl, hmm⟩ := List.append_inj' hb' rfl
        cases hmm
        rw [← i1, h1] at he2
        cases he2
        exact ⟨e, by rw [h2, hm hed]⟩
      · have hb' : b ++ [m] = (x ++ m' :: y') ++ [z] := by rw [hb]; simp
        obtain ⟨rfl, _⟩ := List.append_inj' hb' rfl
        exact i5 x m' y' e2 rfl he2 hed
    by_cases ha : Asks u m
    · cases m with
      | ask v disk =>
        have hv : v = u := ha
        subst hv
        cases h2
        rcases getAnnotations_cases e0 v disk with ⟨d', t', c1, c2⟩ | ⟨c1, _, d', t', c2, c3, c4, _⟩ | ⟨c1, _, _, c2⟩ | ⟨c1, _, c2⟩
        · rw [c2] at hc
          exact keep hc fun hm => hm.elim
        · rw [c4] at hc
          cases hc
          exact ⟨ms, disk, [], e0, rfl, h1, c2, c3, fun x m y e2 hb => by simp at hb⟩
        · rw [c2] at hc; rw [c1] at hc; cases hc
        · rw [c2] at hc; rw [c1] at hc; cases hc
      | _ => exact ha.elim
    · rcases step_annotations h2 ha with hs | ⟨_, _, hs⟩
      · rw [hs] at hc
        refine keep hc fun hm => ?_
        cases hok : ok with
        | false => rfl
        | true =>
          exfalso
          subst hok
          -- an accepted edit forgets
          cases m with
          | changed v w cs =>
            have hv : v = u := hm
            subst hv
            simp only [Engine.step] at h2
            split at h2
            · cases h2
            · rename_i docs okay _
              split at h2
              · cases h2
                have : ({ e0 with docs := docs }.forget v : Engine U D).annotations v = none := if_pos rfl
                rw [this] at hs
                rw [← hs] at hc; cases hc
              · rename_i hn
                cases h2
                exact hn rfl
          | closed v =>
            have hv : v = u := hm
            subst hv
            simp only [Engine.step] at h2
            split at h2
            · injection h2 with h2
              injection h2 with h2 _
              have : e.annotations v = none := by rw [← h2]; exact if_pos rfl
              rw [this] at hs
              rw [← hs] at hc; cases hc
            · rename_i hn
              injection h2 with h2
              injection h2 with _ h2
              exact hn h2
          | _ => exact hm.elim
      · rw [hs] at hc; cases hc

/-- **C106** In every session, the annotations that are kept for a document were made for a request, from the text the document had
then and the environment as it had been parsed then, and since then no edit of the document has been accepted. -/
theorem made_from {r : Bool} {ms : List (Msg U D)} {e : Engine U D} (h : (Engine.new r).run ms = some e) {u : U} {d : D}
    {t : List Char} (hc : e.annotations u = some (d, t)) :
    ∃ a disk b e1, ms = a ++ .ask u disk :: b ∧ (Engine.new r).run a = some e1 ∧ lastParsed a = some d ∧
      e1.contents u disk = some t ∧
      ∀ x m y e2, b = x ++ m :: y → (Engine.new r).run (a ++ .ask u disk :: x) = some e2 → Edits u m →
        ∃ e3, e2.step m = some (e3, false) := by
  have main : ∃ a disk b e1, ms = a ++ .ask u disk :: b ∧ (Engine.new r).run a = some e1 ∧ e1.defines = some d ∧
      e1.contents u disk = some t ∧
      ∀ x m y e2, b = x ++ m :: y → (Engine.new r).run (a ++ .ask u disk :: x) = some e2 → Edits u m →
        ∃ e3, e2.step m = some (e3, false) := made_from_state h hc
  obtain ⟨a, disk, b, e1, i1, i2, i3, i4, i5⟩ := main
  exact ⟨a, disk, b, e1, i1, i2, by rw [← defines_last i2]; exact i3, i4, i5⟩

/-- what is kept for an orderly client is of the text it sees -/
theorem kept_current {r : Bool} {ms : List (Msg U D)} {e : Engine U D} (h : (Engine.new r).run ms = some e) {u : U}
    (ho : Orderly (Engine.new r) ms u) {d : D} {t : List Char} (hc : e.annotations u = some (d, t)) :
    ∃ doc, e.docs u = some doc ∧ doc.text = t := by
  induction ms using List.reverseRecOn generalizing e with
  | nil => cases h; cases hc
  | append_singleton ms m ih =>
    obtain ⟨e0, ok, h1, h2⟩ := run_snoc h
    have ih' := fun hx => ih h1 ho.init (e := e0) hx
    have hm := ho ms m [] e0 rfl h1
    cases m with
    | opened v w x =>
      cases h2
      by_cases hv : v = u
      · obtain ⟨e'', he⟩ := hm.1 hv
        injection he with he
        injection he with _ he
        obtain ⟨doc, hd, _⟩ := ih' hc
        subst hv
        simp [Store.open, hd] at he
      · obtain ⟨doc, hd, ht⟩ := ih' hc
        refine ⟨doc, ?_, ht⟩
        show Store.set _ _ _ u = _
        unfold Store.set
        rw [if_neg fun hx => hv hx.symm]
        exact hd
    | changed v w cs =>
      by_cases hv : v = u
      · obtain ⟨e'', he⟩ := hm.1 hv
        rw [he] at h2
        cases h2
        rcases step_annotations (u := u) he (fun hx => hx.elim) with hs | ⟨_, _, hs⟩
        · simp only [Engine.step] at he
          split at he
          · cases he
          · rename_i docs okay _
            split at he
            · cases he
              subst hv
              have : ({ e0 with docs := docs }.forget v : Engine U D).annotations v = none := if_pos rfl
              rw [this] at hc; cases hc
            · rename_i hn
              injection he with he
              injection he with _ he
              exact absurd he hn
        · rw [hs] at hc; cases hc
      · rcases step_annotations (u := u) h2 (fun hx => hx.elim) with hs | ⟨hx, _⟩
        · rw [hs] at hc
          obtain ⟨doc, hd, ht⟩ := ih' hc
          refine ⟨doc, ?_, ht⟩
          rw [← hd]
          simp only [Engine.step] at h2
          split at h2
          · cases h2
          · rename_i docs okay hch
            have hdocs : docs u = e0.docs u := by
              unfold Store.change at hch
              split at hch
              · cases hch; rfl
              · split at hch
                · cases hch; rfl
                · split at hch
                  · cases hch
                  · cases hch
                    unfold Store.set
                    rw [if_neg fun hx => hv hx.symm]
            split at h2 <;> cases h2 <;> exact hdocs
        · exact absurd hx hv
    | closed v =>
      by_cases hv : v = u
      · subst hv
        simp only [Engine.step] at h2
        split at h2
        · cases h2
          have : ({ e0 with docs := (e0.docs.close v).1 }.forget v : Engine U D).annotations v = none := if_pos rfl
          rw [this] at hc; cases hc
        · rename_i hn
          cases h2
          obtain ⟨doc, hd, _⟩ := ih' hc
          simp [Store.close, hd] at hn
      · rcases step_annotations (u := u) h2 (fun hx => hx.elim) with hs | ⟨hx, _⟩
        · rw [hs] at hc
          obtain ⟨doc, hd, ht⟩ := ih' hc
          refine ⟨doc, ?_, ht⟩
          rw [← hd]
          have hdocs : (e0.docs.close v).1 u = e0.docs u := by
            unfold Store.close Store.set
            exact if_neg fun hx => hv hx.symm
          simp only [Engine.step] at h2
          split at h2 <;> cases h2 <;> exact hdocs
        · exact absurd hx hv
    | parse p =>
      cases p <;> cases h2 <;> exact ih' hc
    | ask v disk =>
      cases h2
      obtain ⟨_, f2, _, f4⟩ := getAnnotations_frame e0 v disk
      rw [f2]
      by_cases hv : v = u
      · subst hv
        have hop := hm.2 rfl
        obtain ⟨doc, hd⟩ := Option.isSome_iff_exists.1 hop
        rcases getAnnotations_cases e0 v disk with ⟨d', t', c1, c2⟩ | ⟨c1, _, d', t', c2, c3, c4, _⟩ | ⟨c1, _, _, c2⟩ | ⟨c1, _, c2⟩
        · rw [c2] at hc
          exact ih' hc
        · rw [c4] at hc
          cases hc
          unfold Engine.contents at c3
          rw [hd] at c3
          cases c3
          exact ⟨doc, hd, rfl⟩
        · rw [c2, c1] at hc; cases hc
        · rw [c2, c1] at hc; cases hc
      · rw [f4 u fun hx => hv hx.symm] at hc
        exact ih' hc

/-- without a workspace nothing is kept -/
theorem single_file_keeps_nothing {ms : List (Msg U D)} {e : Engine U D} (h : (Engine.new false).run ms = some e) (u : U) :
    e.annotations u = none := by
  cases hc : e.annotations u with
  | none => rfl
  | some x =>
    obtain ⟨d, t⟩ := x
    exfalso
    induction ms using List.reverseRecOn generalizing e with
    | nil => cases h; cases hc
    | append_singleton ms m ih =>
      obtain ⟨e0, ok, h1, h2⟩ := run_snoc h
      have hr : e0.root = false := run_root h1
      by_cases ha : Asks u m
      · cases m with
        | ask v disk =>
          have hv : v = u := ha
          subst hv
          cases h2
          rcases getAnnotations_cases e0 v disk with ⟨d', t', c1, c2⟩ | ⟨c1, c2, _⟩ | ⟨c1, c2, _⟩ | ⟨c1, _, c2⟩
          · exact ih h1 (by rw [c2] at hc; exact hc)
          · rw [hr] at c2; cases c2
          · rw [hr] at c2; cases c2
          · rw [c2, c1] at hc; cases hc
        | _ => exact ha.elim
      · rcases step_annotations h2 ha with hs | ⟨_, _, hs⟩
        · rw [hs] at hc
          exact ih h1 hc
        · rw [hs] at hc; cases hc

/-- **C106** A request about an open document is answered from the text the client has sent, for a client that keeps to the
protocol with this document.  With a workspace, the environment it is answered from was the last one parsed at some moment since
the last accepted edit of the document, and is the last one parsed if none was parsed after that moment.  It fails only if no
environment has been parsed. -/
theorem answer_current {r : Bool} {ms : List (Msg U D)} {e : Engine U D} (h : (Engine.new r).run ms = some e) {u : U}
    (ho : Orderly (Engine.new r) ms u) {doc : Document} (hd : e.docs u = some doc) (disk : Option (List Char)) :
    match (e.getAnnotations u disk).2 with
    | none => r = true ∧ lastParsed ms = none
    | some (.alone t) => r = false ∧ t = doc.text
    | some (.within d t) => r = true ∧ t = doc.text ∧
        ∃ a b, ms = a ++ b ∧ lastParsed a = some d ∧
          ((∀ m ∈ b, ¬ Parses m) → lastParsed ms = some d) ∧
          ∀ x m y e2, b = x ++ m :: y → (Engine.new r).run (a ++ x) = some e2 → Edits u m → ∃ e3, e2.step m = some (e3, false) := by
  have hr : e.root = r := run_root h
  have hcont : e.contents u disk = some doc.text := by unfold Engine.contents; rw [hd]
  rcases getAnnotations_cases e u disk with ⟨d', t', c1, c2⟩ | ⟨c1, c2, d', t', c3, c4, _, c5⟩ | ⟨c1, c2, c3, c4⟩ | ⟨c1, c2, c3⟩
  · rw [c2]
    simp only
    have hroot : r = true := by
      cases r with
      | true => rfl
      | false => rw [single_file_keeps_nothing h u] at c1; cases c1
    obtain ⟨doc', k1, k2⟩ := kept_current h ho c1
    rw [hd] at k1; cases k1
    refine ⟨hroot, k2.symm, ?_⟩
    obtain ⟨a, dk, b, e1, i1, i2, i3, i4, i5⟩ := made_from_state h c1
    refine ⟨a, .ask u dk :: b, i1, by rw [← defines_last i2]; exact i3, ?_, ?_⟩
    · intro hb
      rw [← defines_last h]
      rw [i1, run_append, i2] at h
      rw [run_defines h hb]; exact i3
    · intro x m y e2 hx he2 hed
      cases x with
      | nil =>
        simp only [List.nil_append, List.cons.injEq] at hx
        rw [← hx.1] at hed
        exact hed.elim
      | cons z x =>
        simp only [List.cons_append, List.cons.injEq] at hx
        obtain ⟨rfl, hx⟩ := hx
        exact i5 x m y e2 hx he2 hed
  · rw [c5]
    simp only
    rw [hcont] at c4; cases c4
    exact ⟨by rw [← hr]; exact c2, rfl, ms, [], by simp, by rw [← defines_last h]; exact c3, fun _ => by rw [← defines_last h]; exact c3, fun x m y e2 hx => by simp at hx⟩
  · rw [c4]
    simp only
    rw [hcont] at c3
    refine ⟨by rw [← hr]; exact c2, ?_⟩
    rw [← defines_last h]
    rcases c3 with c3 | c3
    · exact c3
    · cases c3
  · rw [c3, hcont]
    simp only [Option.map_some]
    exact ⟨by rw [← hr]; exact c2, trivial⟩

/-- **C106** Without a workspace an answer is from the text as it is, whatever the client does. -/
theorem single_file_current {ms : List (Msg U D)} {e : Engine U D} (h : (Engine.new false).run ms = some e) (u : U)
    (disk : Option (List Char)) : (e.getAnnotations u disk).2 = (e.contents u disk).map .alone := by
  have hn := single_file_keeps_nothing h u
  have hr : e.root = false := run_root h
  rcases getAnnotations_cases e u disk with ⟨d', t', c1, _⟩ | ⟨_, c2, _⟩ | ⟨_, c2, _⟩ | ⟨_, _, c3⟩
  · rw [hn] at c1; cases c1
  · rw [hr] at c2; cases c2
  · rw [hr] at c2; cases c2
  · rw [c3]

end Verif.Session
