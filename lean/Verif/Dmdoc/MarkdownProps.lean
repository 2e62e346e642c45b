import Verif.Dmdoc.MarkdownSpec
import Verif.Docs.Props
import Mathlib.Data.List.TakeWhile

/-!
# C103: documentation blocks
-/

namespace Verif.Dmdoc

open Verif.Docs (blen blen_append slice dropBytes_append takeBytes_append)

/-! ## Trimming -/

theorem trimEnd_nil (p : Char → Bool) : trimEnd p [] = [] := rfl

theorem dropWhile_append_all {p : Char → Bool} {a b : List Char} (h : a.dropWhile p = []) : (a ++ b).dropWhile p = b.dropWhile p := by
  induction a with
  | nil => rfl
  | cons c a ih =>
    rw [List.dropWhile_cons] at h
    split at h
    · next hc => rw [List.cons_append, List.dropWhile_cons, if_pos hc, ih h]
    · cases h

theorem dropWhile_append_some {p : Char → Bool} {a b : List Char} (h : a.dropWhile p ≠ []) :
    (a ++ b).dropWhile p = a.dropWhile p ++ b := by
  induction a with
  | nil => exact absurd rfl h
  | cons c a ih =>
    rw [List.cons_append, List.dropWhile_cons, List.dropWhile_cons] at *
    split at h
    · next hc => rw [if_pos hc, if_pos hc, ih h]
    · next hc => rw [if_neg hc, if_neg hc]; rfl

theorem trimEnd_append_nil {p : Char → Bool} {a b : List Char} (h : trimEnd p b = []) : trimEnd p (a ++ b) = trimEnd p a := by
  unfold trimEnd at *
  rw [List.reverse_append, dropWhile_append_all (by simpa using h)]

theorem trimEnd_append {p : Char → Bool} {a b : List Char} (h : trimEnd p b ≠ []) : trimEnd p (a ++ b) = a ++ trimEnd p b := by
  unfold trimEnd at *
  rw [List.reverse_append, dropWhile_append_some (by simpa using h), List.reverse_append, List.reverse_reverse]

theorem trimEnd_last {p : Char → Bool} (a : List Char) {x : Char} (hx : p x = false) : trimEnd p (a ++ [x]) = a ++ [x] := by
  unfold trimEnd
  rw [List.reverse_append]
  simp [hx]

/-! ## Slugs -/

theorem slugLower_append (al : Char → Bool) (a b : List Char) (d : Bool) :
    slugLower al (a ++ b) d = ((slugLower al a d).1 ++ (slugLower al b (slugLower al a d).2).1, (slugLower al b (slugLower al a d).2).2) := by
  induction a generalizing d with
  | nil => rfl
  | cons c a ih =>
    rw [List.cons_append]
    have hs : ∀ (l : List Char), slugLower al (c :: l) d = if !al c then (if d then ('-' :: (slugLower al l false).1,
        (slugLower al l false).2) else slugLower al l d) else (c :: (slugLower al l true).1, (slugLower al l true).2) := fun _ => rfl
    rw [hs, hs]
    split
    · split
      · simp only [ih, List.cons_append]
      · exact ih d
    · simp only [ih, List.cons_append]

theorem slugLoop_flat (al : Char → Bool) (lower : Char → List Char) (s : List Char) (d : Bool) :
    slugLoop al lower s d = (slugLower al ((s.filter (fun c => decide (c ≠ '\''))).flatMap lower) d).1 := by
  induction s generalizing d with
  | nil => rfl
  | cons c s ih =>
    unfold slugLoop
    split
    · next h => subst h; rw [ih]; rfl
    · next h =>
      rw [List.filter_cons, if_pos (by simpa using h), List.flatMap_cons, slugLower_append]
      simp only [ih]

theorem slugLower_word {al : Char → Bool} {w : List Char} (h : ∀ c ∈ w, al c = true) (h0 : w ≠ []) (d : Bool) :
    slugLower al w d = (w, true) := by
  induction w generalizing d with
  | nil => exact absurd rfl h0
  | cons c w ih =>
    unfold slugLower
    rw [h c List.mem_cons_self]
    cases w with
    | nil => rfl
    | cons c' w => rw [ih (fun x hx => h x (List.mem_cons_of_mem _ hx)) (by simp) true]; rfl

abbrev isDash (c : Char) : Bool := decide (c = '-')

theorem intercalate_cons_ne (w : List Char) {words : List (List Char)} (h : words ≠ []) :
    List.intercalate ['-'] (w :: words) = w ++ '-' :: List.intercalate ['-'] words := by
  cases words with
  | nil => exact absurd rfl h
  | cons v vs => simp [List.intercalate, List.intersperse]

theorem inter_nil {al : Char → Bool} {t : List Char} {words : List (List Char)} (h : WordsOf al t words)
    (he : List.intercalate ['-'] words = []) : words = [] := by
  induction h with
  | nil => rfl
  | sep _ _ ih => exact ih he
  | @word w s ws h0 _ _ _ _ =>
    exfalso
    cases ws with
    | nil => simp [List.intercalate] at he; exact h0 he
    | cons v vs => rw [intercalate_cons_ne w (by simp)] at he; simp at he

theorem slug_core {al : Char → Bool} (hd : al '-' = false) {t : List Char} {words : List (List Char)} (h : WordsOf al t words) :
    trimEnd isDash (slugLower al t false).1 = List.intercalate ['-'] words ∧
      ((∀ c, t.head? = some c → al c = false) → ∀ x, al x = true →
        trimEnd isDash (x :: (slugLower al t true).1) = x :: if words = [] then [] else '-' :: List.intercalate ['-'] words) := by
  have hx : ∀ x, al x = true → isDash x = false := by
    intro x hx
    simp only [isDash, decide_eq_false_iff_not]
    rintro rfl
    rw [hd] at hx
    cases hx
  induction h with
  | nil =>
    refine ⟨rfl, fun _ x h => ?_⟩
    rw [if_pos rfl]
    exact trimEnd_last [] (hx x h)
  | @sep c s words hc hw ih =>
    have hf : slugLower al (c :: s) false = slugLower al s false := by
      conv => lhs; unfold slugLower
      simp [hc]
    have ht : (slugLower al (c :: s) true).1 = '-' :: (slugLower al s false).1 := by
      conv => lhs; unfold slugLower
      simp [hc]
    refine ⟨by rw [hf]; exact ih.1, fun _ x h => ?_⟩
    rw [ht]
    by_cases hn : List.intercalate ['-'] words = []
    · have := inter_nil hw hn
      rw [if_pos this]
      have h1 : trimEnd isDash ('-' :: (slugLower al s false).1) = [] := by
        have := trimEnd_append_nil (p := isDash) (a := ['-']) (b := (slugLower al s false).1) (by rw [ih.1]; exact hn)
        exact this.trans (by decide)
      have := trimEnd_append_nil (p := isDash) (a := [x]) h1
      exact this.trans (trimEnd_last [] (hx x h))
    · have hne : words ≠ [] := by rintro rfl; exact hn rfl
      rw [if_neg hne]
      have := trimEnd_append (p := isDash) (a := [x, '-']) (b := (slugLower al s false).1) (by rw [ih.1]; exact hn)
      rw [ih.1] at this
      exact this
  | @word w s words h0 hall hb hw ih =>
    refine ⟨?_, ?_⟩
    · rw [slugLower_append, slugLower_word hall h0]
      obtain ⟨w', x, rfl⟩ : ∃ w' x, w = w' ++ [x] := ⟨w.dropLast, w.getLast h0, (List.dropLast_append_getLast h0).symm⟩
      have h1 := ih.2 hb x (hall x (by simp))
      have h2 := trimEnd_append (p := isDash) (a := w') (b := x :: (slugLower al s true).1) (by rw [h1]; simp)
      rw [h1] at h2
      have e : w' ++ [x] ++ (slugLower al s true).1 = w' ++ x :: (slugLower al s true).1 := by simp
      simp only
      rw [e, h2]
      split
      · next h => subst h; simp [List.intercalate]
      · next h => rw [intercalate_cons_ne _ h]; simp
    · intro hb'
      exfalso
      cases w with
      | nil => exact h0 rfl
      | cons c w =>
        have h1 := hb' c rfl
        rw [hall c List.mem_cons_self] at h1
        cases h1

/-- **C103** The anchor of a heading is the words of its text in lower case, apostrophes left out, with dashes between. -/
theorem slug_words {al : Char → Bool} {lower : Char → List Char} (hd : al '-' = false) {s : List Char} {words : List (List Char)}
    (h : WordsOf al ((s.filter (fun c => decide (c ≠ '\''))).flatMap lower) words) :
    slugify al lower s = List.intercalate ['-'] words := by
  unfold slugify
  rw [slugLoop_flat]
  exact (slug_core hd h).1

theorem words_exist (al : Char → Bool) (t : List Char) : ∃ words, WordsOf al t words := by
  have key : ∀ n, ∀ t : List Char, t.length ≤ n → ∃ words, WordsOf al t words := by
    intro n
    induction n with
    | zero => intro t ht; cases t with
      | nil => exact ⟨[], .nil⟩
      | cons => simp at ht
    | succ n ih =>
      intro t ht
      cases t with
      | nil => exact ⟨[], .nil⟩
      | cons c t =>
        cases hc : al c with
        | false =>
          obtain ⟨ws, h⟩ := ih t (by simp at ht; omega)
          exact ⟨ws, .sep hc h⟩
        | true =>
          obtain ⟨ws, h⟩ := ih ((c :: t).dropWhile al) (by
            rw [List.dropWhile_cons, if_pos hc]
            have := (List.dropWhile_sublist (l := t) al).length_le
            simp at ht; omega)
          refine ⟨(c :: t).takeWhile al :: ws, ?_⟩
          have hw := WordsOf.word (al := al) (w := (c :: t).takeWhile al) (s := (c :: t).dropWhile al) (words := ws)
            (by rw [List.takeWhile_cons, if_pos hc]; simp) (Docs.takeWhile_all _)
            (fun x hx => by
              cases hd : al x with
              | false => rfl
              | true =>
                have := List.head?_dropWhile_not (p := al) (l := c :: t)
                rw [hx] at this
                simp [hd] at this) h
          rwa [List.takeWhile_append_dropWhile] at hw
  exact key _ t (Nat.le_refl _)

theorem words_all {al : Char → Bool} {t : List Char} {words : List (List Char)} (h : WordsOf al t words) :
    ∀ w ∈ words, w ≠ [] ∧ ∀ c ∈ w, al c = true := by
  induction h with
  | nil => nofun
  | sep _ _ ih => exact ih
  | word h0 hall _ _ ih =>
    intro w hw
    rcases List.mem_cons.1 hw with rfl | h
    · exact ⟨h0, hall⟩
    · exact ih w h

/-- **C103** An anchor has only alphanumeric characters and single dashes between them, so it needs no quoting. -/
theorem slug_chars {al : Char → Bool} {lower : Char → List Char} (hd : al '-' = false) (s : List Char) :
    (∀ c ∈ slugify al lower s, al c = true ∨ c = '-') ∧ (∀ a b, slugify al lower s ≠ a ++ '-' :: '-' :: b) ∧
      (slugify al lower s).head? ≠ some '-' ∧ (slugify al lower s).getLast? ≠ some '-' := by
  obtain ⟨words, h⟩ := words_exist al ((s.filter (fun c => decide (c ≠ '\''))).flatMap lower)
  rw [slug_words hd h]
  have hall := words_all h
  clear h
  induction words with
  | nil => simp [List.intercalate]
  | cons w words ih =>
    have ih := ih fun w hw => hall w (List.mem_cons_of_mem _ hw)
    obtain ⟨h0, hw⟩ := hall w List.mem_cons_self
    have hdash : '-' ∉ w := fun h => by have := hw _ h; rw [hd] at this; cases this
    have hhead : w.head? ≠ some '-' := fun h => hdash (List.mem_of_head? h)
    have hlast : w.getLast? ≠ some '-' := fun h => hdash (List.mem_of_getLast? h)
    by_cases hne : words = []
    · subst hne
      have : List.intercalate ['-'] [w] = w := by simp [List.intercalate]
      rw [this]
      refine ⟨fun c hc => .inl (hw c hc), ?_, hhead, hlast⟩
      intro a b e
      exact hdash (by rw [e]; simp)
    · rw [intercalate_cons_ne w hne]
      obtain ⟨i1, i2, i3, i4⟩ := ih
      have hine : List.intercalate ['-'] words ≠ [] := by
        cases words with
        | nil => exact absurd rfl hne
        | cons v vs =>
          have hv := (hall v (by simp)).1
          by_cases hvs : vs = []
          · subst hvs; simpa [List.intercalate] using hv
          · rw [intercalate_cons_ne v hvs]; simp
      refine ⟨?_, ?_, ?_, ?_⟩
      · intro c hc
        rcases List.mem_append.1 hc with hc | hc
        · exact .inl (hw c hc)
        · rcases List.mem_cons.1 hc with rfl | hc
          · exact .inr rfl
          · exact i1 c hc
      · intro a b e
        rcases List.append_eq_append_iff.1 e with ⟨m, h1, h2⟩ | ⟨m, h1, h2⟩
        · cases m with
          | nil =>
            simp only [List.nil_append, List.cons.injEq, true_and] at h2
            rw [h2] at i3
            exact i3 rfl
          | cons x m =>
            rw [List.cons_append] at h2
            injection h2 with _ h2
            exact i2 m b h2
        · cases m with
          | nil =>
            simp only [List.nil_append, List.cons.injEq, true_and] at h2
            rw [← h2] at i3
            exact i3 rfl
          | cons x m =>
            rw [List.cons_append] at h2
            injection h2 with h2 _
            exact hdash (by rw [h1, ← h2]; simp)
      · cases w with
        | nil => exact absurd rfl h0
        | cons c w => exact hhead
      · rw [List.getLast?_append, List.getLast?_cons]
        cases hl : (List.intercalate ['-'] words).getLast? with
        | none => exact absurd (List.getLast?_eq_none_iff.1 hl) hine
        | some c => simpa [hl] using i4

/-! ## Headings -/

theorem readHeading_spec (evs : List Ev) (buf : List Char) (out : List Ev) :
    (∃ body l rest, evs = body ++ .endH l :: rest ∧ NoEnd body ∧ readHeading evs buf out = (buf ++ textOf body, out ++ body, rest)) ∨
      (NoEnd evs ∧ readHeading evs buf out = (buf ++ textOf evs, out ++ evs, [])) := by
  induction evs generalizing buf out with
  | nil => exact .inr ⟨nofun, by simp [readHeading, textOf]⟩
  | cons e es ih =>
    have step : ∀ buf', (∀ l, e ≠ .endH l) → buf' = buf ++ textOf [e] →
        readHeading (e :: es) buf out = readHeading es buf' (out ++ [e]) →
        (∃ body l rest, e :: es = body ++ .endH l :: rest ∧ NoEnd body ∧
            readHeading (e :: es) buf out = (buf ++ textOf body, out ++ body, rest)) ∨
          (NoEnd (e :: es) ∧ readHeading (e :: es) buf out = (buf ++ textOf (e :: es), out ++ (e :: es), [])) := by
      intro buf' hne hb hr
      have hno : ∀ body, NoEnd body → NoEnd (e :: body) := by
        intro body hb l hl
        rcases List.mem_cons.1 hl with h | h
        · exact hne l h.symm
        · exact hb l h
      have ht : ∀ body, buf' ++ textOf body = buf ++ textOf (e :: body) := by
        intro body
        rw [hb]
        simp [textOf]
      rcases ih buf' (out ++ [e]) with ⟨body, l, rest, h1, h2, h3⟩ | ⟨h2, h3⟩
      · exact Or.inl ⟨e :: body, l, rest, by rw [h1]; rfl, hno body h2, by rw [hr, h3, ht]; simp⟩
      · exact Or.inr ⟨hno es h2, by rw [hr, h3, ht]; simp⟩
    cases e with
    | endH l => exact .inl ⟨[], l, es, rfl, nofun, by simp [readHeading, textOf]⟩
    | text s => exact step (buf ++ s) nofun (by simp [textOf]) rfl
    | startH l => exact step buf nofun (by simp [textOf]) rfl
    | startP => exact step buf nofun (by simp [textOf]) rfl
    | endP => exact step buf nofun (by simp [textOf]) rfl
    | html s => exact step buf nofun (by simp [textOf]) rfl
    | other n => exact step buf nofun (by simp [textOf]) rfl

theorem collect_output (g : Tags) (out inner : List Ev) (n : Nat) :
    Linker.collect g (out.length + n) ⟨inner, out⟩ = out ++ Linker.collect g n ⟨inner, []⟩ := by
  induction out with
  | nil => simp
  | cons o out ih =>
    rw [List.length_cons, show out.length + 1 + n = (out.length + n) + 1 by omega]
    conv => lhs; unfold Linker.collect
    simp only [Linker.next, ih, List.cons_append]

theorem collect_linked (g : Tags) (n : Nat) (evs : List Ev) (hn : 2 * evs.length + 1 ≤ n) :
    Linked g evs (Linker.collect g n ⟨evs, []⟩) := by
  induction n using Nat.strongRecOn generalizing evs with
  | ind n ih =>
    cases n with
    | zero => omega
    | succ n =>
      cases evs with
      | nil => exact .nil
      | cons e es =>
        rw [List.length_cons] at hn
        have plain : (∀ l, e ≠ .startH l) → Linker.next g ⟨e :: es, []⟩ = (some e, ⟨es, []⟩) →
            Linked g (e :: es) (Linker.collect g (n + 1) ⟨e :: es, []⟩) := by
          intro h1 h2
          unfold Linker.collect
          rw [h2]
          exact .plain h1 (ih n (by omega) es (by omega))
        cases e with
        | startH l =>
          unfold Linker.collect
          simp only [Linker.next]
          rcases readHeading_spec es [] [] with ⟨body, l', rest, h1, h2, h3⟩ | ⟨h2, h3⟩
          · rw [h3]
            simp only [List.nil_append]
            subst h1
            simp only [List.length_append, List.length_cons] at hn
            have hl : n = (body ++ [g.closing l]).length + (n - (body.length + 1)) := by
              simp only [List.length_append, List.length_cons, List.length_nil]; omega
            rw [hl, collect_output]
            have := ih (n - (body.length + 1)) (by omega) rest (by omega)
            have hh := Linked.heading (g := g) (l := l) (l' := l') h2 this
            simpa using hh
          · rw [h3]
            simp only [List.nil_append]
            have hl : n = (es ++ [g.closing l]).length + (n - (es.length + 1)) := by
              simp only [List.length_append, List.length_cons, List.length_nil]; omega
            rw [hl, collect_output]
            have : Linker.collect g (n - (es.length + 1)) ⟨[], []⟩ = [] := by
              cases n - (es.length + 1) <;> rfl
            rw [this, List.append_nil]
            exact .unclosed h2
        | endH l => exact plain nofun rfl
        | text s => exact plain nofun rfl
        | startP => exact plain nofun rfl
        | endP => exact plain nofun rfl
        | html s => exact plain nofun rfl
        | other k => exact plain nofun rfl

/-- The events that are rendered. -/
def linkedEvents (g : Tags) (evs : List Ev) : List Ev := Linker.collect g (2 * evs.length + 1) ⟨evs, []⟩

/-- **C103** Headings are rendered with an anchor made of their text, and nothing else is changed, added or lost. -/
theorem headings_linked (r : Render) (evs : List Ev) : ∃ os, Linked r.tags evs os ∧ r.push evs = r.html os :=
  ⟨_, collect_linked r.tags _ evs (Nat.le_refl _), rfl⟩

theorem noEnd_split {a b c d : List Ev} {l l' : Nat} (ha : NoEnd a) (hb : NoEnd b) (h : a ++ .endH l :: c = b ++ .endH l' :: d) :
    a = b ∧ c = d := by
  induction a generalizing b with
  | nil =>
    cases b with
    | nil => cases h; exact ⟨rfl, rfl⟩
    | cons x b => cases h; exact absurd List.mem_cons_self (hb l)
  | cons x a ih =>
    cases b with
    | nil => cases h; exact absurd List.mem_cons_self (ha l')
    | cons y b =>
      rw [List.cons_append, List.cons_append] at h
      injection h with h1 h2
      have := ih (fun k hk => ha k (List.mem_cons_of_mem _ hk)) (fun k hk => hb k (List.mem_cons_of_mem _ hk)) h2
      exact ⟨by rw [h1, this.1], this.2⟩

theorem linked_unique {g : Tags} {evs a b : List Ev} (ha : Linked g evs a) (hb : Linked g evs b) : a = b := by
  induction ha generalizing b with
  | nil => cases hb; rfl
  | plain h1 _ ih =>
    cases hb with
    | plain _ h => rw [ih h]
    | heading => exact absurd rfl (h1 _)
    | unclosed => exact absurd rfl (h1 _)
  | @heading l l' body es os hn hes ih =>
    generalize hx : Ev.startH l :: (body ++ .endH l' :: es) = x at hb
    cases hb with
    | nil => cases hx
    | plain h1 _ => cases hx; exact absurd rfl (h1 _)
    | heading hn' hes' =>
      injection hx with h1 h2
      cases h1
      obtain ⟨rfl, rfl⟩ := noEnd_split hn hn' h2
      rw [ih hes']
    | unclosed hn' =>
      injection hx with h1 h2
      subst h2
      exact absurd (by simp) (hn' l')
  | @unclosed l body hn =>
    cases hb with
    | plain h1 _ => exact absurd rfl (h1 _)
    | @heading _ l' body' es' _ _ _ => exact absurd (by simp) (hn l')
    | unclosed => rfl

/-! ## Blocks -/

theorem readUntil_spec (stop : Ev) (p rest acc : List Ev) (h : stop ∉ p) :
    readUntil stop (p ++ stop :: rest) acc = (acc ++ p, rest) := by
  induction p generalizing acc with
  | nil => simp [readUntil]
  | cons e p ih =>
    rw [List.cons_append]
    unfold readUntil
    rw [if_neg (fun he => h (by simp [he]))]
    rw [ih _ (fun hp => h (List.mem_cons_of_mem _ hp))]
    simp

/-- **C103** The title is what is in a heading of the first level at the start, and is not part of the block. -/
theorem title_spec (r : Render) (t rest : List Ev) (h : Ev.endH 1 ∉ t) :
    parseWithTitle r (.startH 1 :: (t ++ .endH 1 :: rest)) = (some (r.push t), parseMain r rest) := by
  unfold parseWithTitle
  simp only [readUntil_spec _ t rest [] h, List.nil_append]

/-- **C103** Without such a heading there is no title. -/
theorem title_none (r : Render) (evs : List Ev) (h : evs.head? ≠ some (.startH 1)) :
    parseWithTitle r evs = (none, parseMain r evs) := by
  unfold parseWithTitle
  split
  · exact absurd rfl h
  · rfl

theorem slice_first {a b c : List Char} : slice (a ++ b ++ c) (blen a) (blen (a ++ b)) = some b := by
  unfold slice
  rw [blen_append, if_pos (Nat.le_add_right _ _), Nat.add_sub_cancel_left, List.append_assoc, dropBytes_append]
  exact takeBytes_append b c

theorem trim_keeps {ws : Char → Bool} {a m b : List Char} (h : ∃ c ∈ m, ws c = false) : ∃ x, trimEnd ws (a ++ m ++ b) = a ++ x := by
  by_cases hb : trimEnd ws b = []
  · rw [trimEnd_append_nil hb]
    have hm : trimEnd ws m ≠ [] := by
      obtain ⟨c, hc, hw⟩ := h
      intro hn
      unfold trimEnd at hn
      have : m.reverse.dropWhile ws = [] := by simpa using hn
      rw [List.dropWhile_eq_nil_iff] at this
      have := this c (by simpa using hc)
      rw [hw] at this
      cases this
    rw [trimEnd_append hm]
    exact ⟨_, rfl⟩
  · rw [trimEnd_append hb]
    exact ⟨_, List.append_assoc _ _ _⟩

/-- **C103** The teaser is exactly the first paragraph, if the text starts with one; there is a description exactly if anything
comes after it; and the text is all of it, without white space at the end. -/
theorem teaser_spec (r : Render) (hp : ∃ c ∈ r.html [.endP], r.ws c = false) (p rest : List Ev) (h : Ev.endP ∉ p) :
    (parseMain r (.startP :: (p ++ .endP :: rest))).teaserText = some (r.push p) ∧
      ((parseMain r (.startP :: (p ++ .endP :: rest))).hasDescription = true ↔ rest ≠ []) ∧
      (parseMain r (.startP :: (p ++ .endP :: rest))).html =
        trimEnd r.ws (r.html [.startP] ++ r.push p ++ r.html [.endP] ++ r.push rest) := by
  have e1 : r.push [.startP] = r.html [.startP] := rfl
  have e2 : r.push [.endP] = r.html [.endP] := rfl
  unfold parseMain
  simp only [readUntil_spec _ p rest [] h, List.nil_append, e1, e2]
  refine ⟨?_, by cases rest <;> simp, trivial⟩
  unfold Block.teaserText
  obtain ⟨x, hx⟩ := trim_keeps (a := r.html [.startP] ++ r.push p) (b := r.push rest) hp
  simp only [hx]
  exact slice_first

theorem no_paragraph (r : Render) (evs : List Ev) (h : evs.head? ≠ some .startP) :
    parseMain r evs = ⟨trimEnd r.ws (r.push evs), !evs.isEmpty, (0, 0)⟩ := by
  unfold parseMain
  split
  · exact absurd rfl h
  · rfl

/-- **C103** Without a paragraph at the start the teaser is empty. -/
theorem teaser_none (r : Render) (evs : List Ev) (h : evs.head? ≠ some .startP) :
    (parseMain r evs).teaserText = some [] ∧ ((parseMain r evs).hasDescription = true ↔ evs ≠ []) := by
  rw [no_paragraph r evs h]
  refine ⟨?_, by cases evs <;> simp⟩
  unfold Block.teaserText slice
  simp [Docs.dropBytes, Docs.takeBytes]

theorem readUntil_cases (stop : Ev) (evs acc : List Ev) :
    ∃ a b, readUntil stop evs acc = (acc ++ a, b) := by
  induction evs generalizing acc with
  | nil => exact ⟨[], [], by simp [readUntil]⟩
  | cons e es ih =>
    unfold readUntil
    split
    · exact ⟨[], es, by simp⟩
    · obtain ⟨a, b, h⟩ := ih (acc ++ [e])
      exact ⟨e :: a, b, by rw [h]; simp⟩

/-- **C103** Taking the teaser does not panic, whatever the events. -/
theorem teaser_total (r : Render) (hp : ∃ c ∈ r.html [.endP], r.ws c = false) (evs : List Ev) :
    ∃ t, (parseMain r evs).teaserText = some t := by
  by_cases h : evs.head? = some .startP
  · cases evs with
    | nil => cases h
    | cons e es =>
      cases h
      obtain ⟨a, b, hab⟩ := readUntil_cases .endP es []
      have e2 : r.push [.endP] = r.html [.endP] := rfl
      unfold parseMain Block.teaserText
      simp only [hab, e2]
      obtain ⟨x, hx⟩ := trim_keeps (a := r.push [.startP] ++ r.push ([] ++ a)) (b := r.push b) hp
      rw [hx]
      exact ⟨_, slice_first⟩
  · exact ⟨[], (teaser_none r evs h).1⟩

end Verif.Dmdoc
