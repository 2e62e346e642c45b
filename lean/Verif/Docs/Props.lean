import Verif.Docs.Model

/-! # Documentation comments -/

namespace Verif.Docs

/-! ## Specification -/

/-- without the blank lines at the end -/
def trimEnd {α : Type} : List (Option α) → List (Option α)
  | [] => []
  | x :: r => if (trimEnd r).isEmpty && x.isNone then [] else x :: trimEnd r

/-- lines, of which `none` is blank: without blank ones at the start and at the end, joined by newlines -/
def joinLines (ls : List (Option (List Char))) : List Char :=
  ['\n'].intercalate ((trimEnd (ls.dropWhile (·.isNone))).map (·.getD []))

/-- a line of the comment and of the result: a blank line is blank, and any other has `p` and `s` removed -/
inductive Stripped (ws : Char → Bool) (ic : Char) (p s : List Char) : List Char → Option (List Char) → Prop where
  | blank {l} : (∀ c ∈ l, ign ws ic c = true) → Stripped ws ic p s l none
  | text {m} : (∃ c ∈ m, ign ws ic c = false) → Stripped ws ic p s (p ++ m ++ s) (some m)

/-! ## Bytes -/

theorem size_pos (c : Char) : 0 < c.utf8Size := Char.utf8Size_pos c

theorem blen_append (a b : List Char) : blen (a ++ b) = blen a + blen b := by
  induction a with
  | nil => simp [blen]
  | cons c a ih => simp [blen, ih]; omega

theorem dropBytes_append (p r : List Char) : dropBytes (blen p) (p ++ r) = some r := by
  induction p with
  | nil => cases r <;> rfl
  | cons c p ih =>
    have := size_pos c
    obtain ⟨n, hn⟩ : ∃ n, blen (c :: p) = n + 1 := ⟨c.utf8Size + blen p - 1, by simp [blen]; omega⟩
    rw [hn, List.cons_append, dropBytes]
    simp only [blen] at hn
    rw [if_pos (by omega)]
    have : n + 1 - c.utf8Size = blen p := by omega
    rw [this, ih]

theorem takeBytes_append (p r : List Char) : takeBytes (blen p) (p ++ r) = some p := by
  induction p with
  | nil => cases r <;> rfl
  | cons c p ih =>
    have := size_pos c
    obtain ⟨n, hn⟩ : ∃ n, blen (c :: p) = n + 1 := ⟨c.utf8Size + blen p - 1, by simp [blen]; omega⟩
    rw [hn, List.cons_append, takeBytes]
    simp only [blen] at hn
    rw [if_pos (by omega)]
    have : n + 1 - c.utf8Size = blen p := by omega
    rw [this, ih]
    rfl

theorem slice_middle (p m s : List Char) : slice (p ++ m ++ s) (blen p) (blen (p ++ m ++ s) - blen s) = some m := by
  unfold slice
  rw [blen_append, blen_append, if_pos (by omega), List.append_assoc, dropBytes_append]
  have : blen p + blen m + blen s - blen s - blen p = blen m := by omega
  rw [this]
  exact takeBytes_append m s

/-! ## The common prefix and suffix -/

theorem common_left (a b : List Char) : common a b <+: a := by
  induction a generalizing b with
  | nil => cases b <;> exact List.prefix_refl _
  | cons x a ih =>
    cases b with
    | nil => exact List.nil_prefix
    | cons y b =>
      unfold common
      split
      · exact (List.prefix_cons_inj x).2 (ih b)
      · exact List.nil_prefix

theorem common_right (a b : List Char) : common a b <+: b := by
  induction a generalizing b with
  | nil => cases b <;> exact List.nil_prefix
  | cons x a ih =>
    cases b with
    | nil => exact List.nil_prefix
    | cons y b =>
      unfold common
      split
      · rename_i h
        subst h
        exact (List.prefix_cons_inj x).2 (ih b)
      · exact List.nil_prefix

theorem common_max (x a b : List Char) (h1 : x <+: a) (h2 : x <+: b) : x <+: common a b := by
  induction x generalizing a b with
  | nil => exact List.nil_prefix
  | cons c x ih =>
    cases a with
    | nil => simp at h1
    | cons y a =>
      cases b with
      | nil => simp at h2
      | cons z b =>
        rw [List.cons_prefix_cons] at h1 h2
        obtain ⟨rfl, h1⟩ := h1
        obtain ⟨rfl, h2⟩ := h2
        unfold common
        rw [if_pos rfl]
        exact (List.prefix_cons_inj c).2 (ih a b h1 h2)

variable {ws : Char → Bool} {ic : Char}

theorem takeWhile_max {p : Char → Bool} (x l : List Char) (h1 : x <+: l) (h2 : ∀ c ∈ x, p c = true) :
    x <+: l.takeWhile p := by
  induction x generalizing l with
  | nil => exact List.nil_prefix
  | cons c x ih =>
    cases l with
    | nil => simp at h1
    | cons y l =>
      rw [List.cons_prefix_cons] at h1
      obtain ⟨rfl, h1⟩ := h1
      rw [List.takeWhile_cons, if_pos (h2 c (by simp))]
      exact (List.prefix_cons_inj c).2 (ih l h1 fun d hd => h2 d (by simp [hd]))

theorem takeWhile_all {p : Char → Bool} (l : List Char) : ∀ c ∈ l.takeWhile p, p c = true := by
  intro c hc
  exact List.all_eq_true.1 List.all_takeWhile c hc

/-- `p` and `s` are what can be stripped from the lines that are not blank, and no more can be -/
structure Best (ws : Char → Bool) (ic : Char) (ls : List (List Char)) (p s : List Char) : Prop where
  pIgn : ∀ c ∈ p, ign ws ic c = true
  sIgn : ∀ c ∈ s, ign ws ic c = true
  pre : ∀ l ∈ ls, isEmpty ws l ic = false → p <+: l
  suf : ∀ l ∈ ls, isEmpty ws l ic = false → s <:+ l
  pMax : ∀ x, (∀ c ∈ x, ign ws ic c = true) → (∀ l ∈ ls, isEmpty ws l ic = false → x <+: l) →
    (∃ l ∈ ls, isEmpty ws l ic = false) → x <+: p
  sMax : ∀ x, (∀ c ∈ x, ign ws ic c = true) → (∀ l ∈ ls, isEmpty ws l ic = false → x <:+ l) →
    (∃ l ∈ ls, isEmpty ws l ic = false) → x <:+ s

theorem linePrefix_pre (l : List Char) : linePrefix ws ic l <+: l := List.takeWhile_prefix _
theorem lineSuffix_suf (l : List Char) : lineSuffix ws ic l <:+ l := by
  unfold lineSuffix
  rw [← List.reverse_prefix, List.reverse_reverse]
  exact List.takeWhile_prefix _

theorem affixes_some (ls : List (List Char)) (p0 s0 : List Char) (hp : ∀ c ∈ p0, ign ws ic c = true)
    (hs : ∀ c ∈ s0, ign ws ic c = true) :
    ∃ p s, affixes ws ic ls (some p0, some s0) = (some p, some s) ∧ p <+: p0 ∧ s <:+ s0 ∧
      (∀ l ∈ ls, isEmpty ws l ic = false → p <+: l) ∧ (∀ l ∈ ls, isEmpty ws l ic = false → s <:+ l) ∧
      (∀ x, (∀ c ∈ x, ign ws ic c = true) → (∀ l ∈ ls, isEmpty ws l ic = false → x <+: l) → x <+: p0 → x <+: p) ∧
      (∀ x, (∀ c ∈ x, ign ws ic c = true) → (∀ l ∈ ls, isEmpty ws l ic = false → x <:+ l) → x <:+ s0 → x <:+ s) := by
  induction ls generalizing p0 s0 with
  | nil => exact ⟨p0, s0, rfl, List.prefix_refl _, List.suffix_refl _, by simp, by simp, fun _ _ _ h => h, fun _ _ _ h => h⟩
  | cons l ls ih =>
    unfold affixes
    by_cases he : isEmpty ws l ic = true
    · rw [if_pos he]
      obtain ⟨p, s, h1, h2, h3, h4, h5, h6, h7⟩ := ih p0 s0 hp hs
      refine ⟨p, s, h1, h2, h3, ?_, ?_, ?_, ?_⟩
      · intro k hk hne
        rcases List.mem_cons.1 hk with rfl | hk
        · rw [he] at hne; cases hne
        · exact h4 k hk hne
      · intro k hk hne
        rcases List.mem_cons.1 hk with rfl | hk
        · rw [he] at hne; cases hne
        · exact h5 k hk hne
      · exact fun x hx hl => h6 x hx fun k hk => hl k (by simp [hk])
      · exact fun x hx hl => h7 x hx fun k hk => hl k (by simp [hk])
    · rw [if_neg he]
      simp only [shortenPrefix, shortenSuffix]
      have q1 := common_left p0 (linePrefix ws ic l)
      have q2 := common_right p0 (linePrefix ws ic l)
      have r1 := common_left s0.reverse (lineSuffix ws ic l).reverse
      have r2 := common_right s0.reverse (lineSuffix ws ic l).reverse
      rw [← List.reverse_suffix, List.reverse_reverse] at r1 r2
      obtain ⟨p, s, h1, h2, h3, h4, h5, h6, h7⟩ := ih (common p0 (linePrefix ws ic l))
        (common s0.reverse (lineSuffix ws ic l).reverse).reverse
        (fun c hc => hp c (q1.subset hc)) (fun c hc => hs c (r1.subset hc))
      refine ⟨p, s, h1, h2.trans q1, h3.trans r1, ?_, ?_, ?_, ?_⟩
      · intro k hk hne
        rcases List.mem_cons.1 hk with rfl | hk
        · exact (h2.trans q2).trans (linePrefix_pre _)
        · exact h4 k hk hne
      · intro k hk hne
        rcases List.mem_cons.1 hk with rfl | hk
        · exact (h3.trans r2).trans (lineSuffix_suf _)
        · exact h5 k hk hne
      · intro x hx hl hx0
        refine h6 x hx (fun k hk => hl k (by simp [hk])) (common_max x _ _ hx0 ?_)
        exact takeWhile_max x l (hl l (by simp) (by simpa using he)) hx
      · intro x hx hl hx0
        refine h7 x hx (fun k hk => hl k (by simp [hk])) ?_
        rw [← List.reverse_prefix, List.reverse_reverse]
        refine common_max _ _ _ (List.reverse_prefix.2 hx0) ?_
        unfold lineSuffix
        rw [List.reverse_reverse]
        refine takeWhile_max _ _ (List.reverse_prefix.2 (hl l (by simp) (by simpa using he))) ?_
        intro c hc
        exact hx c (by simpa using hc)

theorem affixes_none (ls : List (List Char)) :
    ∃ p s, optLen (affixes ws ic ls (none, none)).1 = blen p ∧ optLen (affixes ws ic ls (none, none)).2 = blen s ∧
      Best ws ic ls p s := by
  induction ls with
  | nil => exact ⟨[], [], rfl, rfl, by simp, by simp, by simp, by simp, by simp, by simp⟩
  | cons l ls ih =>
    unfold affixes
    by_cases he : isEmpty ws l ic = true
    · rw [if_pos he]
      obtain ⟨p, s, h1, h2, hb⟩ := ih
      refine ⟨p, s, h1, h2, hb.pIgn, hb.sIgn, ?_, ?_, ?_, ?_⟩
      · intro k hk hne
        rcases List.mem_cons.1 hk with rfl | hk
        · rw [he] at hne; cases hne
        · exact hb.pre k hk hne
      · intro k hk hne
        rcases List.mem_cons.1 hk with rfl | hk
        · rw [he] at hne; cases hne
        · exact hb.suf k hk hne
      · rintro x hx hl ⟨k, hk, hne⟩
        rcases List.mem_cons.1 hk with rfl | hk
        · rw [he] at hne; cases hne
        · exact hb.pMax x hx (fun k hk => hl k (by simp [hk])) ⟨k, hk, hne⟩
      · rintro x hx hl ⟨k, hk, hne⟩
        rcases List.mem_cons.1 hk with rfl | hk
        · rw [he] at hne; cases hne
        · exact hb.sMax x hx (fun k hk => hl k (by simp [hk])) ⟨k, hk, hne⟩
    · rw [if_neg he]
      simp only [shortenPrefix, shortenSuffix]
      have hpi : ∀ c ∈ linePrefix ws ic l, ign ws ic c = true := takeWhile_all l
      have hsi : ∀ c ∈ lineSuffix ws ic l, ign ws ic c = true := by
        intro c hc
        unfold lineSuffix at hc
        exact takeWhile_all _ c (List.mem_reverse.1 hc)
      obtain ⟨p, s, h1, h2, h3, h4, h5, h6, h7⟩ := affixes_some ls (linePrefix ws ic l) (lineSuffix ws ic l) hpi hsi
      rw [h1]
      refine ⟨p, s, rfl, rfl, fun c hc => hpi c (h2.subset hc), fun c hc => hsi c (h3.subset hc), ?_, ?_, ?_, ?_⟩
      · intro k hk hne
        rcases List.mem_cons.1 hk with rfl | hk
        · exact h2.trans (linePrefix_pre _)
        · exact h4 k hk hne
      · intro k hk hne
        rcases List.mem_cons.1 hk with rfl | hk
        · exact h3.trans (lineSuffix_suf _)
        · exact h5 k hk hne
      · intro x hx hl _
        exact h6 x hx (fun k hk => hl k (by simp [hk])) (takeWhile_max x l (hl l (by simp) (by simpa using he)) hx)
      · intro x hx hl _
        refine h7 x hx (fun k hk => hl k (by simp [hk])) ?_
        unfold lineSuffix
        rw [← List.reverse_prefix, List.reverse_reverse]
        refine takeWhile_max _ _ (List.reverse_prefix.2 (hl l (by simp) (by simpa using he))) ?_
        intro c hc
        exact hx c (by simpa using hc)

theorem not_empty_iff {l : List Char} : isEmpty ws l ic = false ↔ ∃ c ∈ l, ign ws ic c = false := by
  simp [isEmpty]

theorem empty_iff {l : List Char} : isEmpty ws l ic = true ↔ ∀ c ∈ l, ign ws ic c = true := by
  simp [isEmpty]

theorem split_line {l p s : List Char} (hl : isEmpty ws l ic = false) (hp : p <+: l) (hs : s <:+ l)
    (hpi : ∀ c ∈ p, ign ws ic c = true) (hsi : ∀ c ∈ s, ign ws ic c = true) :
    ∃ m, l = p ++ m ++ s ∧ ∃ c ∈ m, ign ws ic c = false := by
  obtain ⟨c, hc, hic⟩ := not_empty_iff.1 hl
  obtain ⟨u, v, rfl⟩ := List.append_of_mem hc
  have h1 : p <+: u := by
    rcases List.prefix_or_prefix_of_prefix hp (List.prefix_append u (c :: v)) with h | h
    · exact h
    · obtain ⟨w, rfl⟩ := h
      rw [List.prefix_append_right_inj] at hp
      cases w with
      | nil => simp
      | cons d w =>
        rw [List.cons_prefix_cons] at hp
        have := hpi d (by simp)
        rw [hp.1, hic] at this
        cases this
  have h2 : s <:+ v := by
    have hsv : v <:+ u ++ c :: v := ⟨u ++ [c], by simp⟩
    rcases List.suffix_or_suffix_of_suffix hs hsv with h | h
    · exact h
    · obtain ⟨w, rfl⟩ := h
      rcases List.eq_nil_or_concat w with rfl | ⟨w, d, rfl⟩
      · simp
      · obtain ⟨z, hz⟩ := hs
        have hz' : (z ++ w) ++ [d] ++ v = u ++ [c] ++ v := by simpa using hz
        have := List.append_cancel_right hz'
        have hd : d = c := by
          have := congrArg List.getLast? this
          simpa using this
        have := hsi d (by simp)
        rw [hd, hic] at this
        cases this
  obtain ⟨a, rfl⟩ := h1
  obtain ⟨b, rfl⟩ := h2
  exact ⟨a ++ c :: b, by simp, c, by simp, hic⟩

/-! ## The loop that strips -/

/-- what the loop puts out -/
def render : Nat → List (Option (List Char)) → List Char
  | _, [] => []
  | n, none :: r => render (if n > 0 then n + 1 else n) r
  | n, some x :: r => List.replicate n '\n' ++ x ++ render 1 r

theorem render_pos (ls : List (Option (List Char))) (n : Nat) :
    render (n + 1) ls =
      if (trimEnd ls).isEmpty then [] else List.replicate n '\n' ++ (trimEnd ls).flatMap fun x => '\n' :: x.getD [] := by
  induction ls generalizing n with
  | nil => rfl
  | cons x r ih =>
    cases x with
    | none =>
      unfold render
      rw [if_pos (by omega), ih (n + 1)]
      rw [trimEnd]
      by_cases h : (trimEnd r).isEmpty = true
      · simp [h]
      · simp only [h, Bool.false_eq_true, if_false, Bool.false_and]
        simp [List.replicate_succ']
    | some x =>
      unfold render
      rw [show (1 : Nat) = 0 + 1 from rfl, ih 0]
      have : trimEnd (some x :: r) = some x :: trimEnd r := by rw [trimEnd]; simp
      rw [this]
      by_cases h : (trimEnd r).isEmpty = true
      · simp only [h, if_true, List.isEmpty_cons, Bool.false_eq_true, if_false]
        have : trimEnd r = [] := by simpa using h
        rw [this]
        simp [List.replicate_succ']
      · simp only [h, Bool.false_eq_true, if_false, List.isEmpty_cons]
        simp [List.replicate_succ']

theorem intercalate_cons (x : List Char) (r : List (List Char)) :
    ['\n'].intercalate (x :: r) = x ++ r.flatMap ('\n' :: ·) := by
  induction r generalizing x with
  | nil => simp [List.intercalate]
  | cons y r ih =>
    have : ['\n'].intercalate (x :: y :: r) = x ++ '\n' :: ['\n'].intercalate (y :: r) := by
      simp [List.intercalate, List.intersperse]
    rw [this, ih y]
    simp

theorem render_zero (ls : List (Option (List Char))) : render 0 ls = joinLines ls := by
  unfold joinLines
  induction ls with
  | nil => rfl
  | cons x r ih =>
    cases x with
    | none =>
      unfold render
      rw [if_neg (by omega), ih]
      simp
    | some x =>
      unfold render
      have : (some x :: r).dropWhile (·.isNone) = some x :: r := by simp
      rw [this]
      have : trimEnd (some x :: r) = some x :: trimEnd r := by rw [trimEnd]; simp
      rw [this, List.map_cons, intercalate_cons, show (1 : Nat) = 0 + 1 from rfl, render_pos]
      by_cases h : (trimEnd r).isEmpty = true
      · have h' : trimEnd r = [] := by simpa using h
        simp [h']
      · simp [h, List.flatMap_map]

theorem strip_render {p s : List Char} (ls : List (List Char)) (ms : List (Option (List Char)))
    (h : List.Forall₂ (Stripped ws ic p s) ls ms) (n : Nat) (a : Bool) (out : List Char) :
    strip ws ic (blen p) (blen s) ls n a out = some (out ++ render n ms, a || ms.any (·.isSome)) := by
  induction h generalizing n a out with
  | nil => simp [strip, render]
  | @cons l m ls ms h1 _ ih =>
    unfold strip
    cases h1 with
    | blank hb =>
      rw [if_pos (empty_iff.2 hb), ih]
      simp [render]
    | @text m hm =>
      obtain ⟨c, hc, hic⟩ := hm
      have hne : isEmpty ws (p ++ m ++ s) ic = false := not_empty_iff.2 ⟨c, by simp [hc], hic⟩
      rw [if_neg (by rw [hne]; simp), if_neg (by rw [blen_append]; omega), slice_middle]
      simp only
      rw [ih]
      simp [render]

/-- C40: no comment makes `simplify` panic.  It removes one and the same prefix `p` and suffix `s` from every line
that is not blank; they consist of characters to ignore and are the longest such; blank lines at the start and at the
end are dropped and other lines are joined by newlines -/
theorem simplify_spec (ws : Char → Bool) (ic : Char) (out text : List Char) :
    ∃ p s ms, Best ws ic (lines text) p s ∧ List.Forall₂ (Stripped ws ic p s) (lines text) ms ∧
      simplify ws out text ic = some (out ++ joinLines ms, ms.any (·.isSome)) := by
  obtain ⟨p, s, h1, h2, hb⟩ := affixes_none (ws := ws) (ic := ic) (lines text)
  have : ∀ ls : List (List Char), (∀ l ∈ ls, l ∈ lines text) → ∃ ms, List.Forall₂ (Stripped ws ic p s) ls ms := by
    intro ls
    induction ls with
    | nil => exact fun _ => ⟨[], .nil⟩
    | cons l ls ih =>
      intro hl
      obtain ⟨ms, hms⟩ := ih fun k hk => hl k (by simp [hk])
      cases he : isEmpty ws l ic with
      | true => exact ⟨none :: ms, .cons (.blank (empty_iff.1 he)) hms⟩
      | false =>
        obtain ⟨m, h3, h4⟩ := split_line he (hb.pre l (hl l (by simp)) he) (hb.suf l (hl l (by simp)) he) hb.pIgn hb.sIgn
        exact ⟨some m :: ms, .cons (h3 ▸ .text h4) hms⟩
  obtain ⟨ms, hms⟩ := this (lines text) fun _ h => h
  refine ⟨p, s, ms, hb, hms, ?_⟩
  unfold simplify
  by_cases ht : text = []
  · subst ht
    have : lines [] = [] := rfl
    rw [this] at hms
    cases hms
    simp [joinLines, trimEnd]
  · rw [if_neg ht]
    simp only
    rw [h1, h2, strip_render _ _ hms, render_zero]
    simp

/-! ## Content -/

theorem stripCr_filter (K : Char → Bool) (hr : K '\r' = false) (l : List Char) : (stripCr l).filter K = l.filter K := by
  unfold stripCr
  split
  · rename_i h
    have hne : l ≠ [] := by intro h'; rw [h'] at h; cases h
    have : l = l.dropLast ++ ['\r'] := by
      have := List.dropLast_append_getLast hne
      rw [List.getLast?_eq_getLast hne] at h
      rw [Option.some.inj h] at this
      exact this.symm
    conv => rhs; rw [this]
    rw [List.filter_append]
    simp [hr]
  · rfl

theorem linesGo_filter (K : Char → Bool) (hn : K '\n' = false) (hr : K '\r' = false) (t cur : List Char) :
    (linesGo cur t).flatMap (·.filter K) = cur.filter K ++ t.filter K := by
  induction t generalizing cur with
  | nil =>
    unfold linesGo
    split
    · rename_i h; simp [h]
    · simp
  | cons c t ih =>
    unfold linesGo
    split
    · rename_i h
      subst h
      rw [List.flatMap_cons, ih, stripCr_filter K hr]
      simp [hn]
    · rw [ih]
      simp [List.filter_append, List.filter_cons]
      split <;> simp_all

theorem lines_filter (K : Char → Bool) (hn : K '\n' = false) (hr : K '\r' = false) (t : List Char) :
    (lines t).flatMap (·.filter K) = t.filter K := by
  unfold lines
  rw [linesGo_filter K hn hr]
  rfl

theorem render_filter (K : Char → Bool) (hn : K '\n' = false) (ms : List (Option (List Char))) (n : Nat) :
    (render n ms).filter K = ms.flatMap fun m => (m.getD []).filter K := by
  induction ms generalizing n with
  | nil => rfl
  | cons m ms ih =>
    cases m with
    | none => rw [render, ih]; simp
    | some x =>
      rw [render, List.filter_append, List.filter_append, ih]
      have : (List.replicate n '\n').filter K = [] := by
        rw [List.filter_eq_nil_iff]
        intro c hc
        rw [List.eq_of_mem_replicate hc, hn]
        simp
      simp [this]

theorem filter_ign {K : Char → Bool} (hK : ∀ c, K c = true → ign ws ic c = false) {l : List Char}
    (h : ∀ c ∈ l, ign ws ic c = true) : l.filter K = [] := by
  rw [List.filter_eq_nil_iff]
  intro c hc hk
  have := hK c hk
  rw [h c hc] at this
  cases this

theorem stripped_filter {K : Char → Bool} (hK : ∀ c, K c = true → ign ws ic c = false) {p s : List Char}
    (hp : ∀ c ∈ p, ign ws ic c = true) (hs : ∀ c ∈ s, ign ws ic c = true) {ls : List (List Char)}
    {ms : List (Option (List Char))} (h : List.Forall₂ (Stripped ws ic p s) ls ms) :
    (ms.flatMap fun m => (m.getD []).filter K) = ls.flatMap (·.filter K) := by
  induction h with
  | nil => rfl
  | cons h1 _ ih =>
    rw [List.flatMap_cons, List.flatMap_cons, ih]
    cases h1 with
    | blank hb => simp [filter_ign hK hb]
    | text hm => simp [filter_ign hK hp, filter_ign hK hs]

/-- C40: `simplify` keeps every character that is not to be ignored, in order -/
theorem simplify_content (ws : Char → Bool) (ic : Char) (K : Char → Bool) (hK : ∀ c, K c = true → ign ws ic c = false)
    (hn : ws '\n' = true) (hr : ws '\r' = true) (out text : List Char) :
    ∃ o b, simplify ws out text ic = some (o, b) ∧ o.filter K = out.filter K ++ text.filter K := by
  have kn : K '\n' = false := by
    cases h : K '\n' with
    | false => rfl
    | true => have := hK _ h; simp [ign, hn] at this
  have kr : K '\r' = false := by
    cases h : K '\r' with
    | false => rfl
    | true => have := hK _ h; simp [ign, hr] at this
  obtain ⟨p, s, ms, hb, hms, h⟩ := simplify_spec ws ic out text
  refine ⟨_, _, h, ?_⟩
  rw [List.filter_append, ← render_zero, render_filter K kn, stripped_filter hK hb.pIgn hb.sIgn hms,
    lines_filter K kn kr]

theorem simplify_result (hn : ws '\n' = true) (hr : ws '\r' = true) (out text : List Char) :
    ∃ o, simplify ws out text ic = some (out ++ o, !isEmpty ws text ic) ∧ (o = [] ↔ isEmpty ws text ic = true) := by
  obtain ⟨p, s, ms, hb, hms, h⟩ := simplify_spec ws ic out text
  have key : ∀ {ls : List (List Char)} {ms : List (Option (List Char))}, List.Forall₂ (Stripped ws ic p s) ls ms →
      (ms.any (·.isSome) = false ↔ ∀ l ∈ ls, isEmpty ws l ic = true) := by
    intro ls ms h
    induction h with
    | nil => simp
    | cons h1 _ ih =>
      rw [List.any_cons, Bool.or_eq_false_iff, ih]
      cases h1 with
      | blank hb => simp [empty_iff.2 hb]
      | @text m hm =>
        obtain ⟨c, hc, hic⟩ := hm
        have : isEmpty ws (p ++ m ++ s) ic = false := not_empty_iff.2 ⟨c, by simp [hc], hic⟩
        simp only [List.append_assoc] at this
        simp [this]
  -- the text is blank if its lines are
  have hlines : (∀ l ∈ lines text, isEmpty ws l ic = true) ↔ isEmpty ws text ic = true := by
    have h1 := lines_filter (fun c => !ign ws ic c) (by simp [ign, hn]) (by simp [ign, hr]) text
    rw [empty_iff]
    constructor
    · intro hl
      have h2 : (lines text).flatMap (·.filter fun c => !ign ws ic c) = [] := by
        rw [List.flatMap_eq_nil_iff]
        intro l hl'
        rw [List.filter_eq_nil_iff]
        intro c hc
        have := empty_iff.1 (hl l hl') c hc
        simp [this]
      rw [h2] at h1
      have h3 := List.filter_eq_nil_iff.1 h1.symm
      intro c hc
      simpa using h3 c hc
    · intro ht l hl
      have h2 : text.filter (fun c => !ign ws ic c) = [] := by
        rw [List.filter_eq_nil_iff]
        intro c hc
        simp [ht c hc]
      rw [h2, List.flatMap_eq_nil_iff] at h1
      have h3 := List.filter_eq_nil_iff.1 (h1 l hl)
      exact empty_iff.2 fun c hc => by simpa using h3 c hc
  have hany : ms.any (·.isSome) = !isEmpty ws text ic := by
    cases he : isEmpty ws text ic with
    | true => simpa using (key hms).2 (hlines.2 he)
    | false =>
      cases ha : ms.any (·.isSome) with
      | true => rfl
      | false =>
        have := hlines.1 ((key hms).1 ha)
        rw [he] at this; cases this
  refine ⟨joinLines ms, by rw [h, hany], ?_⟩
  rw [← render_zero]
  constructor
  · intro hnil
    cases he : isEmpty ws text ic with
    | true => rfl
    | false =>
      obtain ⟨c, hc, hic⟩ := not_empty_iff.1 he
      have h1 := render_filter (fun c => !ign ws ic c) (by simp [ign, hn]) ms 0
      rw [stripped_filter (K := fun c => !ign ws ic c) (fun c h => by simpa using h) hb.pIgn hb.sIgn hms,
        lines_filter _ (by simp [ign, hn]) (by simp [ign, hr]), hnil] at h1
      have : c ∈ text.filter (fun c => !ign ws ic c) := by simp [hc, hic]
      rw [← h1] at this
      simp at this
  · intro he
    rw [he] at hany
    have : ∀ (ms : List (Option (List Char))) n, ms.any (·.isSome) = false → render n ms = [] := by
      intro ms
      induction ms with
      | nil => intros; rfl
      | cons m ms ih =>
        intro n h
        rw [List.any_cons, Bool.or_eq_false_iff] at h
        cases m with
        | none => rw [render]; exact ih _ h.2
        | some x => simp at h
    exact this ms 0 (by simpa using hany)

/-! ## Collections -/

theorem flush_ok (hn : ws '\n' = true) (hr : ws '\r' = true) (K : Char → Bool) (hK : ∀ c, K c = true → ign ws '/' c = false)
    (out lc : List Char) :
    ∃ o, flush ws out lc = some o ∧ o.filter K = out.filter K ++ lc.filter K ∧
      (o = [] ↔ out = [] ∧ isEmpty ws lc '/' = true) := by
  unfold flush
  split
  · rename_i h
    subst h
    exact ⟨out, rfl, by simp, by simp [isEmpty]⟩
  · obtain ⟨o, b, h1, h2⟩ := simplify_content ws '/' K hK hn hr out lc
    obtain ⟨o', h3, h4⟩ := simplify_result (ws := ws) (ic := '/') hn hr out lc
    rw [h1] at h3
    cases h3
    refine ⟨out ++ o', by rw [h1]; rfl, h2, ?_⟩
    rw [List.append_eq_nil_iff, h4]

theorem pushBlock_ok (hn : ws '\n' = true) (hr : ws '\r' = true) (K : Char → Bool)
    (hK : ∀ c, K c = true → ign ws '*' c = false) (out : List Char) (c : Comment) (hc : c.kind = .block) :
    ∃ o, pushBlock ws out c = some o ∧ o.filter K = out.filter K ++ c.text.filter K ∧
      (o = [] ↔ out = [] ∧ c.isEmpty ws = true) := by
  have kn : K '\n' = false := by
    cases h : K '\n' with
    | false => rfl
    | true => have := hK _ h; simp [ign, hn] at this
  unfold pushBlock
  split
  · rename_i h
    refine ⟨out, rfl, ?_, by simp [h]⟩
    unfold Comment.isEmpty at h
    rw [hc] at h
    rw [filter_ign hK (empty_iff.1 h)]
    simp
  · rename_i h
    obtain ⟨o, b, h1, h2⟩ := simplify_content ws '*' K hK hn hr (out ++ ['\n']) c.text
    obtain ⟨o', h3, h4⟩ := simplify_result (ws := ws) (ic := '*') hn hr (out ++ ['\n']) c.text
    rw [h1] at h3
    cases h3
    rw [h1]
    refine ⟨_, rfl, ?_, ?_⟩
    · simp only
      split
      · rw [List.filter_append, h2]; simp [kn, List.filter_append]
      · rw [h2]; simp [kn, List.filter_append]
    · simp only
      constructor
      · intro h5
        split at h5 <;> simp at h5
      · intro h5
        exact absurd h5.2 h

theorem textGo_ok (hn : ws '\n' = true) (hr : ws '\r' = true) (K : Char → Bool)
    (hK : ∀ c, K c = true → ws c = false ∧ c ≠ '*' ∧ c ≠ '/') (cs : List Comment) (out lc : List Char) :
    ∃ o, textGo ws cs out lc = some o ∧
      o.filter K = out.filter K ++ lc.filter K ++ cs.flatMap (·.text.filter K) ∧
      (o = [] ↔ out = [] ∧ isEmpty ws lc '/' = true ∧ collectionEmpty ws cs = true) := by
  have hK1 : ∀ c, K c = true → ign ws '*' c = false := by
    intro c hc
    have := hK c hc
    simp [ign, this]
  have hK2 : ∀ c, K c = true → ign ws '/' c = false := by
    intro c hc
    have := hK c hc
    simp [ign, this]
  have kn : K '\n' = false := by
    cases h : K '\n' with
    | false => rfl
    | true => have := (hK _ h).1; rw [hn] at this; cases this
  induction cs generalizing out lc with
  | nil =>
    unfold textGo
    obtain ⟨o, h1, h2, h3⟩ := flush_ok hn hr K hK2 out lc
    exact ⟨o, h1, by simpa using h2, by simpa [collectionEmpty] using h3⟩
  | cons c cs ih =>
    unfold textGo
    cases hk : c.kind with
    | block =>
      simp only
      obtain ⟨o1, h1, h2, h3⟩ := flush_ok hn hr K hK2 out lc
      obtain ⟨o2, h4, h5, h6⟩ := pushBlock_ok hn hr K hK1 o1 c hk
      obtain ⟨o, h7, h8, h9⟩ := ih o2 []
      rw [h1, Option.bind_some, h4]
      refine ⟨o, h7, ?_, ?_⟩
      · rw [h8, h5, h2]; simp
      · rw [h9, h6, h3]
        simp [isEmpty, collectionEmpty, and_assoc]
    | line =>
      simp only
      obtain ⟨o, h7, h8, h9⟩ := ih out (lc ++ c.text ++ ['\n'])
      refine ⟨o, h7, ?_, ?_⟩
      · rw [h8]; simp [List.filter_append, kn]
      · rw [h9]
        have e1 : isEmpty ws (lc ++ c.text ++ ['\n']) '/' = (isEmpty ws lc '/' && isEmpty ws c.text '/') := by
          simp [isEmpty, ign, hn, Bool.and_assoc]
        have e2 : c.isEmpty ws = isEmpty ws c.text '/' := by
          unfold Comment.isEmpty; rw [hk]; rfl
        rw [e1]
        simp [collectionEmpty, e2, and_assoc]

/-- C40: rendering documentation does not panic, and keeps every character other than white space, `*` and `/`,
in order -/
theorem text_content (ws : Char → Bool) (hn : ws '\n' = true) (hr : ws '\r' = true) (cs : List Comment) :
    ∃ o, text ws cs = some o ∧
      o.filter (fun c => !ws c && c != '*' && c != '/') =
        (cs.flatMap (·.text)).filter (fun c => !ws c && c != '*' && c != '/') := by
  obtain ⟨o, h1, h2, _⟩ := textGo_ok (ws := ws) hn hr (fun c => !ws c && c != '*' && c != '/')
    (fun c h => by simpa [and_assoc] using h) cs [] []
  refine ⟨o, h1, ?_⟩
  rw [h2, List.filter_flatMap]
  simp

/-- C40: a collection is empty exactly if it renders to nothing -/
theorem text_empty_iff (ws : Char → Bool) (hn : ws '\n' = true) (hr : ws '\r' = true) (cs : List Comment) :
    collectionEmpty ws cs = true ↔ text ws cs = some [] := by
  obtain ⟨o, h1, _, h3⟩ := textGo_ok (ws := ws) hn hr (fun _ => false) (fun c h => by cases h) cs [] []
  change text ws cs = some o at h1
  rw [h1]
  simp only [Option.some.injEq, h3]
  simp [isEmpty]

/-! ## Examples -/

/-- white space for the examples -/
def ws0 (c : Char) : Bool := c == ' ' || c == '\n' || c == '\r' || c == '\t'

example : ws0 '\n' = true ∧ ws0 '\r' = true := ⟨rfl, rfl⟩

example : simplify ws0 [] ("*\n * one\r\n *\n *   two *\n ".toList) '*' = some ("one\n\n  two *".toList, true) := by
  decide +kernel

example : text ws0 [⟨.line, " a".toList⟩, ⟨.line, " b".toList⟩, ⟨.block, " c ".toList⟩, ⟨.line, " d".toList⟩] =
    some "a\nb\nc\nd".toList := by decide +kernel

end Verif.Docs
