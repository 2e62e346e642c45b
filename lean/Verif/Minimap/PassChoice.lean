import Verif.Minimap.PassModel
import Mathlib.Data.List.Infix

/-!
# C75: which passes run, what they hide and on which layer things are drawn
-/

namespace Verif.Minimap

open Verif.Const Verif.Dmi Verif.Objtree

/-! ## Selection -/

/-- the comma-separated text has the given item -/
def HasItem (text item : List Char) : Prop :=
  ∃ pre post, text = pre ++ item ++ post ∧ (pre = [] ∨ pre.getLast? = some ',') ∧ (post = [] ∨ post.head? = some ',')

theorem split_mem (item : List Char) (hi : ',' ∉ item) : ∀ text, item ∈ splitComma text ↔ HasItem text item := by
  have head : ∀ text, ∃ w ws, splitComma text = w :: ws := by
    intro text
    cases text with
    | nil => exact ⟨_, _, rfl⟩
    | cons c cs =>
      rw [splitComma]
      split
      · exact ⟨_, _, rfl⟩
      · split
        · exact ⟨_, _, rfl⟩
        · exact ⟨_, _, rfl⟩
  -- the first word ends at the first comma
  have first : ∀ text w ws, splitComma text = w :: ws → ∃ post, text = w ++ post ∧ ',' ∉ w ∧
      ((post = [] ∧ ws = []) ∨ ∃ q, post = ',' :: q ∧ ws = splitComma q) := by
    intro text
    induction text with
    | nil => intro w ws h; cases h; exact ⟨[], rfl, by simp, .inl ⟨rfl, rfl⟩⟩
    | cons c cs ih =>
      intro w ws h
      rw [splitComma] at h
      split at h
      · rename_i hc
        cases h
        exact ⟨c :: cs, rfl, by simp, .inr ⟨cs, by rw [hc], rfl⟩⟩
      · rename_i hc
        obtain ⟨w', ws', e⟩ := head cs
        rw [e] at h
        cases h
        obtain ⟨post, h1, h2, h3⟩ := ih w' ws e
        exact ⟨post, by rw [h1]; rfl, by simp [h2, Ne.symm hc], h3⟩
  intro text
  generalize hn : text.length = n
  induction n using Nat.strongRecOn generalizing text with
  | ind n ih =>
    obtain ⟨w, ws, e⟩ := head text
    obtain ⟨post, h1, h2, h3⟩ := first text w ws e
    rw [e, List.mem_cons]
    constructor
    · rintro (rfl | h)
      · refine ⟨[], post, h1, .inl rfl, ?_⟩
        rcases h3 with ⟨rfl, _⟩ | ⟨q, rfl, _⟩
        · exact .inl rfl
        · exact .inr rfl
      · rcases h3 with ⟨_, rfl⟩ | ⟨q, rfl, rfl⟩
        · cases h
        · have hq : q.length < n := by rw [← hn, h1]; simp; omega
          obtain ⟨pre, post', e1, e2, e3⟩ := (ih q.length hq q rfl).1 h
          refine ⟨w ++ ',' :: pre, post', by rw [h1, e1]; simp, .inr ?_, e3⟩
          rcases e2 with rfl | e2
          · simp
          · rw [List.getLast?_append, List.getLast?_cons, e2]; rfl
    · rintro ⟨pre, post', e1, e2, e3⟩
      -- the item is the first word or starts after the first comma
      rcases List.eq_nil_or_concat pre with rfl | ⟨pre', x, rfl⟩
      · left
        rw [h1, List.nil_append] at e1
        rcases List.append_eq_append_iff.1 e1 with ⟨a, ha, hb⟩ | ⟨a, ha, hb⟩
        · rcases h3 with ⟨rfl, _⟩ | ⟨q, rfl, _⟩
          · have := (List.append_eq_nil_iff.1 hb.symm).1
            rw [ha, this, List.append_nil]
          · cases a with
            | nil => rw [ha, List.append_nil]
            | cons y a =>
              simp only [List.cons_append, List.cons.injEq] at hb
              rw [ha, ← hb.1] at hi
              simp at hi
        · rcases e3 with rfl | e3
          · have := (List.append_eq_nil_iff.1 hb.symm).1
            rw [ha, this, List.append_nil]
          · cases a with
            | nil => rw [ha, List.append_nil]
            | cons y a =>
              rw [hb] at e3
              simp only [List.cons_append, List.head?_cons, Option.some.injEq] at e3
              rw [ha, e3] at h2
              simp at h2
      · right
        have hx : x = ',' := by
          rcases e2 with e2 | e2
          · simp at e2
          · simpa using e2
        subst hx
        rw [h1] at e1
        have hsplit : ∃ a, pre' ++ [','] = w ++ ',' :: a ∧ post = ',' :: (a ++ item ++ post') := by
          simp only [List.append_assoc, List.singleton_append, List.concat_eq_append] at e1
          rcases List.append_eq_append_iff.1 e1 with ⟨a, ha, hb⟩ | ⟨a, ha, hb⟩
          · cases a with
            | nil =>
              rw [List.append_nil] at ha
              exact ⟨[], by rw [ha], by rw [hb]; simp⟩
            | cons y a =>
              have hy : y = ',' := by
                rcases h3 with ⟨rfl, _⟩ | ⟨q, rfl, _⟩
                · cases hb
                · simp only [List.cons_append, List.cons.injEq] at hb
                  exact hb.1.symm
              subst hy
              exact ⟨a ++ [','], by rw [ha]; simp, by rw [hb]; simp⟩
          · cases a with
            | nil =>
              rw [List.append_nil] at ha
              exact ⟨[], by rw [ha], by rw [← List.nil_append post, ← hb]; simp⟩
            | cons y a =>
              simp only [List.cons_append, List.cons.injEq] at hb
              rw [ha, ← hb.1] at h2
              simp at h2
        obtain ⟨a, ha, hb⟩ := hsplit
        rcases h3 with ⟨rfl, _⟩ | ⟨q, rfl, rfl⟩
        · cases hb
        · have hq : q.length < n := by rw [← hn, h1]; simp; omega
          rw [ih q.length hq q rfl]
          cases hb
          refine ⟨a, post', rfl, ?_, e3⟩
          rcases List.eq_nil_or_concat a with rfl | ⟨a', z, rfl⟩
          · exact .inl rfl
          · right
            have := congrArg List.getLast? ha
            simp [List.getLast?_append, List.getLast?_cons] at this
            simp [← this]

/-- **C75.** A pass runs if it is named in the list to include; else not if it is named in the list to exclude; else
if everything is included; else not if everything is excluded; else as the configuration says; else by default. -/
theorem pass_chosen (config : List (List Char × Bool)) (inc exc : List Char) (name : String) (dflt : Bool)
    (h : (name, dflt) ∈ RENDER_PASSES) :
    name ∈ configure config inc exc ↔
      HasItem inc name.toList ∨ ¬HasItem exc name.toList ∧ (HasItem inc "all".toList ∨ ¬HasItem exc "all".toList ∧
        (config.lookup name.toList = some true ∨ config.lookup name.toList = none ∧ dflt = true)) := by
  have hcomma : ∀ p ∈ RENDER_PASSES, ',' ∉ p.1.toList := by decide +kernel
  have huniq : ∀ p ∈ RENDER_PASSES, ∀ q ∈ RENDER_PASSES, p.1 = q.1 → p = q := by decide +kernel
  have hall : ',' ∉ "all".toList := by decide +kernel
  have hany (l : List (List Char)) (x : List Char) : l.any (fun y => decide (y = x)) = true ↔ x ∈ l := by
    simp [List.any_eq_true]
  have hinc : name ∈ configure config inc exc ↔ included config (splitComma inc) (splitComma exc) (name, dflt) = true := by
    unfold configure configureList
    simp only [List.mem_map, List.mem_filter]
    constructor
    · rintro ⟨p, ⟨hp, hi⟩, rfl⟩
      rwa [huniq p hp _ h rfl] at hi
    · intro hi
      exact ⟨_, ⟨h, hi⟩, rfl⟩
  have item (t x : List Char) (hx : ',' ∉ x) : (splitComma t).any (· = x) = true ↔ HasItem t x :=
    (hany _ _).trans (split_mem x hx t)
  rw [hinc, ← item inc _ (hcomma _ h), ← item exc _ (hcomma _ h), ← item inc _ hall, ← item exc _ hall]
  unfold included
  simp only
  generalize (splitComma inc).any (· = name.toList) = a
  generalize (splitComma exc).any (· = name.toList) = b
  generalize (splitComma inc).any (· = "all".toList) = c
  generalize (splitComma exc).any (· = "all".toList) = d
  cases config.lookup name.toList with
  | none => cases a <;> cases b <;> cases c <;> cases d <;> simp
  | some v => cases a <;> cases b <;> cases c <;> cases d <;> simp

/-- **C75.** The passes run in the order of the table, each at most once. -/
theorem pass_order (config : List (List Char × Bool)) (inc exc : List Char) :
    (configure config inc exc).Sublist (RENDER_PASSES.map (·.1)) ∧ (configure config inc exc).Nodup := by
  have h : (configure config inc exc).Sublist (RENDER_PASSES.map (·.1)) := List.filter_sublist.map _
  exact ⟨h, h.nodup (by decide +kernel)⟩

example : HasItem "hide-space,all".toList "all".toList :=
  ⟨"hide-space,".toList, [], by decide +kernel, .inr (by decide +kernel), .inl rfl⟩

/-- everything but hide-space -/
example : configure [] "all".toList "hide-space,pretty".toList =
    ["hide-areas", "hide-invisible", "random", "spawners", "overlays", "transit-tube", "gravity-gen", "only-powernet",
      "only-pipenet", "fancy-layers", "icon-smoothing-2016", "icon-smoothing", "icon-smoothing-2025", "smart-cables",
      "only-wires-and-pipes"] := by decide +kernel

/-! ## Configured paths -/

/-- a configured path without the slash at its end -/
def clean (k : List Char) : List Char := if k.getLast? = some '/' then k.dropLast else k

theorem slashed_eq (k : List Char) : slashed k = clean k ++ ['/'] := by
  unfold slashed clean
  split
  · rename_i h
    rw [List.getLast?_eq_some_iff] at h
    obtain ⟨ys, rfl⟩ := h
    simp
  · rfl

theorem ispath_slash (p k : List Char) : ispath p (k ++ ['/']) = ispath p k := by
  unfold ispath
  simp

theorem ispath_slashed (p k : List Char) (hk : (clean k).getLast? ≠ some '/') :
    ispath p (slashed k) = true ↔ Under p (clean k) := by
  rw [slashed_eq, ispath_slash, ispath_spec p _ hk]

theorem ispath_lit (p : List Char) (q : String) (q' : List Char) (h : q.toList = q' ++ ['/'])
    (hq : q'.getLast? ≠ some '/') : ispath p q.toList = true ↔ Under p q' := by
  rw [h, ispath_slash, ispath_spec p _ hq]

theorem byteLen_append (a b : List Char) : byteLen (a ++ b) = byteLen a + byteLen b := by
  simp [byteLen]

theorem byteLen_pos {a : List Char} (h : a ≠ []) : 0 < byteLen a := by
  cases a with
  | nil => exact absurd rfl h
  | cons c a =>
    have := Char.utf8Size_pos c
    simp only [byteLen, List.map_cons, List.sum_cons]
    omega

theorem byteLen_clean (k : List Char) : byteLen (clean k) ≤ byteLen k ∧ byteLen k ≤ byteLen (clean k) + 1 := by
  unfold clean
  split
  · rename_i h
    rw [List.getLast?_eq_some_iff] at h
    obtain ⟨ys, rfl⟩ := h
    rw [List.dropLast_concat, byteLen_append]
    exact ⟨by omega, Nat.le_refl _⟩
  · omega

/-- of two paths above the same one, the shorter is above the longer, with at least a slash and a name in between -/
theorem Under.nested {p a b : List Char} (ha : Under p a) (hb : Under p b) (h : a.length < b.length)
    (hbl : b.getLast? ≠ some '/') : ∃ c, c ≠ [] ∧ b = a ++ '/' :: c := by
  obtain ⟨r, e, hr⟩ := ha
  obtain ⟨s, rfl, hs⟩ := hb
  have hlen : r ≠ [] := by
    rintro rfl
    have := congrArg List.length e
    simp at this
    omega
  cases r with
  | nil => exact absurd rfl hlen
  | cons x r =>
    rcases hr with hr | hr
    · cases hr
    · simp only [List.head?_cons, Option.some.injEq] at hr
      subst hr
      rcases List.append_eq_append_iff.1 e with ⟨c, h1, h2⟩ | ⟨c, h1, h2⟩
      · rw [h1] at h
        simp at h
      · cases c with
        | nil =>
          rw [h1] at h
          simp at h
        | cons y c =>
          simp only [List.cons_append, List.cons.injEq] at h2
          refine ⟨c, ?_, by rw [h1, ← h2.1]⟩
          rintro rfl
          apply hbl
          rw [h1, ← h2.1]
          simp

/-- **C75.** The configured layer of a thing is that of its nearest ancestor type, for paths written with or without a
slash at the end and whatever the order of the configuration. -/
theorem layer_nearest (config ov : List (List Char × F32)) (hp : ov.Perm config)
    (hs : ov.Pairwise fun a b => byteLen b.1 ≤ byteLen a.1)
    (hk : ∀ e ∈ config, (clean e.1).getLast? ≠ some '/') (p : List Char) :
    (∀ k v, (k, v) ∈ config → Under p (clean k) →
      (∀ e ∈ config, Under p (clean e.1) → e ≠ (k, v) → (clean e.1).length < (clean k).length) →
      fancyLayer ov p = some (.ofF32 v)) ∧
    ((∀ e ∈ config, ¬Under p (clean e.1)) → fancyLayer ov p = builtinLayer p) := by
  constructor
  · intro k v hmem hu hnear
    have hmem' := hp.mem_iff.2 hmem
    have hsub : ∀ e ∈ ov, e ∈ config := fun e he => hp.mem_iff.1 he
    suffices overrideFor p ov = some (.ofF32 v) by unfold fancyLayer; rw [this]
    clear hp
    induction ov with
    | nil => cases hmem'
    | cons e rest ih =>
      obtain ⟨k', v'⟩ := e
      rw [overrideFor]
      have hk' := hk _ (hsub (k', v') (by simp))
      by_cases hu' : Under p (clean k')
      · rw [if_pos ((ispath_slashed p k' hk').2 hu')]
        by_cases he : (k', v') = (k, v)
        · cases he; rfl
        · exfalso
          have hlt := hnear _ (hsub _ (by simp)) hu' he
          rcases List.mem_cons.1 hmem' with h | h
          · exact he h.symm
          · have hle := (List.pairwise_cons.1 hs).1 _ h
            obtain ⟨c, hc, heq⟩ := Under.nested hu' hu hlt (hk _ hmem)
            have b1 := (byteLen_clean k).1
            have b2 := (byteLen_clean k').2
            have b3 : byteLen (clean k) = byteLen (clean k') + (1 + byteLen c) := by
              rw [heq, byteLen_append]
              simp [byteLen]
              decide
            have b4 := byteLen_pos hc
            simp only at hle
            omega
      · rw [if_neg (by rw [ispath_slashed p k' hk']; exact hu')]
        have hne : (k, v) ≠ (k', v') := by
          rintro h
          cases h
          exact hu' hu
        exact ih (List.pairwise_cons.1 hs).2 ((List.mem_cons.1 hmem').resolve_left hne)
          fun e he => hsub e (by simp [he])
  · intro h
    have hsub : ∀ e ∈ ov, e ∈ config := fun e he => hp.mem_iff.1 he
    suffices overrideFor p ov = none by unfold fancyLayer; rw [this]
    clear hp hs
    induction ov with
    | nil => rfl
    | cons e rest ih =>
      obtain ⟨k', v'⟩ := e
      have hm := hsub (k', v') (by simp)
      rw [overrideFor, if_neg (by rw [ispath_slashed p k' (hk _ hm)]; exact h _ hm)]
      exact ih fun e he => hsub e (by simp [he])

/-- **C75, disagreement.** A path configured with several slashes at the end wins over a longer path. -/
theorem slashes_win (v w : F32) :
    let config := [("/foo/////".toList, v), ("/foo/bar".toList, w)]
    config.Pairwise (fun a b => byteLen b.1 ≤ byteLen a.1) ∧
      fancyLayer config "/foo/bar".toList = some (.ofF32 v) := by
  refine ⟨?_, ?_⟩
  · simp only [List.pairwise_cons, List.mem_singleton, List.not_mem_nil, false_implies, implies_true, List.Pairwise.nil,
      and_true]
    rintro a rfl
    simp only
    decide +kernel
  · have h : ispath "/foo/bar".toList (slashed "/foo/////".toList) = true := by decide +kernel
    simp only [fancyLayer, overrideFor, h, if_true]

/-- the nearest of two ancestors, written with and without slash, in the order of decreasing length -/
example (v w u : F32) : fancyLayer [("/obj/item/gun/".toList, v), ("/obj/item".toList, w), ("/turf".toList, u)]
    "/obj/item/gun/laser".toList = some (.ofF32 v) := by
  refine (layer_nearest _ _ (List.Perm.refl _) ?_ ?_ _).1 "/obj/item/gun/".toList v (by simp) ?_ ?_
  · simp only [List.pairwise_cons, List.mem_cons, List.not_mem_nil, false_implies, implies_true, List.Pairwise.nil,
      and_true, or_false, forall_eq_or_imp, forall_eq]
    exact ⟨⟨by decide +kernel, by decide +kernel⟩, by decide +kernel⟩
  · simp only [List.mem_cons, List.not_mem_nil, or_false, forall_eq_or_imp, forall_eq]
    exact ⟨by decide +kernel, by decide +kernel, by decide +kernel⟩
  · exact ⟨"/laser".toList, by decide +kernel, .inr (by decide +kernel)⟩
  · simp only [List.mem_cons, List.not_mem_nil, or_false, forall_eq_or_imp, forall_eq]
    exact ⟨fun _ h => absurd rfl h, fun _ _ => by decide +kernel, fun _ _ => by decide +kernel⟩

/-! ## Built-in layers -/

/-- two paths, neither above the other, have nothing below both -/
theorem apart {p a b : List Char} (h : Under p a) (h1 : ¬Under a b) (h2 : ¬Under b a) : ¬Under p b := by
  intro hb
  obtain ⟨r, e, hr⟩ := h
  obtain ⟨s, rfl, hs⟩ := hb
  rcases List.append_eq_append_iff.1 e with ⟨c, e1, e2⟩ | ⟨c, e1, e2⟩
  · apply h1
    refine ⟨c, e1, ?_⟩
    cases c with
    | nil => exact .inl rfl
    | cons y c =>
      rcases hs with rfl | hs
      · cases e2
      · rw [e2] at hs
        exact .inr (by simpa using hs)
  · apply h2
    refine ⟨c, e1, ?_⟩
    cases c with
    | nil => exact .inl rfl
    | cons y c =>
      rcases hr with rfl | hr
      · cases e2
      · rw [e2] at hr
        exact .inr (by simpa using hr)

/-- without slashes at the end -/
def trim (x : List Char) : List Char := (x.reverse.dropWhile (· = '/')).reverse

theorem trim_last (x : List Char) : (trim x).getLast? ≠ some '/' := by
  unfold trim
  rw [List.getLast?_reverse]
  generalize x.reverse = y
  induction y with
  | nil => simp
  | cons c y ih =>
    rw [List.dropWhile_cons]
    split
    · exact ih
    · rename_i h
      simpa using h

theorem trim_trim (x : List Char) : trim (trim x) = trim x := by
  have h := trim_last x
  generalize trim x = y at *
  rcases List.eq_nil_or_concat y with rfl | ⟨z, c, rfl⟩
  · rfl
  · have hc : c ≠ '/' := by
      rintro rfl
      simp at h
    simp [trim, hc]

theorem ispath_trim (p x : List Char) : ispath p x = true ↔ Under p (trim x) := by
  rw [← ispath_spec p _ (trim_last x)]
  unfold ispath
  have := trim_trim x
  unfold trim at this ⊢
  rw [this]

/-- a path below one type is not below an unrelated one -/
theorem off {p a b : List Char} (h : ispath p a = true) (h1 : ispath (trim a) b = false) (h2 : ispath (trim b) a = false) :
    ispath p b = false := by
  rw [ispath_trim] at h
  rw [← Bool.not_eq_true, ispath_trim] at h1 h2 ⊢
  exact apart h h1 h2

/-- a path below one type is below those above it -/
theorem on {p a b : List Char} (h : ispath p a = true) (h1 : ispath (trim a) b = true) : ispath p b = true := by
  rw [ispath_trim] at h h1 ⊢
  exact h.trans h1

/-- the text has `visible` in it -/
def Visible (p : List Char) : Prop := ∃ a b, p = a ++ "visible".toList ++ b

theorem visible_iff (p : List Char) : p.tails.any ("visible".toList.isPrefixOf ·) = true ↔ Visible p := by
  rw [List.any_eq_true]
  constructor
  · rintro ⟨t, ht, h⟩
    obtain ⟨a, rfl⟩ := (List.mem_tails _ _).1 ht
    obtain ⟨b, rfl⟩ := List.isPrefixOf_iff_prefix.1 h
    exact ⟨a, b, by rw [List.append_assoc]⟩
  · rintro ⟨a, b, rfl⟩
    refine ⟨"visible".toList ++ b, (List.mem_tails _ _).2 ⟨a, by rw [List.append_assoc]⟩, ?_⟩
    rw [List.isPrefixOf_iff_prefix]
    exact ⟨b, rfl⟩

/-- is below the type -/
def Is (p : List Char) (q : String) : Prop := Under p q.toList

theorem Is.ispath {p : List Char} {q : String} (h : Is p q) (r : String) (hr : trim r.toList = q.toList) :
    ispath p r.toList = true := by
  rw [ispath_trim, hr]
  exact h

theorem Is.not {p : List Char} {q : String} (h : ¬Is p q) (r : String) (hr : trim r.toList = q.toList) :
    Objtree.ispath p r.toList = false := by
  rw [← Bool.not_eq_true, ispath_trim, hr]
  exact h

/-- things under the floor -/
def UnderFloor (p : List Char) : Prop :=
  Is p "/obj/structure/lattice" ∨ Is p "/obj/structure/disposalpipe" ∨
    (Is p "/obj/machinery/atmospherics/pipe" ∧ ¬Visible p) ∨ Is p "/obj/structure/cable" ∨
    Is p "/obj/machinery/power/terminal"

/-- floors and walls -/
def Solid (p : List Char) : Prop :=
  (Is p "/turf/open/floor" ∧ ¬Is p "/turf/open/floor/plating") ∨ (Is p "/turf/closed" ∧ ¬Is p "/turf/closed/mineral")

/-- plating, space and turfs of other kinds -/
def Bottom (p : List Char) : Prop :=
  Is p "/turf/open/floor/plating" ∨ Is p "/turf/open/space" ∨
    (Is p "/turf" ∧ ¬Is p "/turf/open/floor" ∧ ¬Is p "/turf/closed")

theorem solid_layer {p : List Char} (h : Solid p) : builtinLayer p = some ⟨-2, 0⟩ := by
  unfold builtinLayer
  simp only
  rcases h with ⟨h, hn⟩ | ⟨h, hn⟩
  · have h := h.ispath "/turf/open/floor/" (by decide +kernel)
    have hn := Is.not hn "/turf/open/floor/plating/" (by decide +kernel)
    rw [hn, off (b := "/turf/open/space/".toList) h (by decide +kernel) (by decide +kernel),
      off (b := "/turf/closed/mineral/".toList) h (by decide +kernel) (by decide +kernel), h]
    rfl
  · have h := h.ispath "/turf/closed/" (by decide +kernel)
    have hn := Is.not hn "/turf/closed/mineral/" (by decide +kernel)
    rw [hn, off (b := "/turf/open/space/".toList) h (by decide +kernel) (by decide +kernel),
      off (b := "/turf/open/floor/plating/".toList) h (by decide +kernel) (by decide +kernel), h]
    generalize ispath p "/turf/open/floor/".toList = x
    cases x <;> rfl

theorem bottom_layer {p : List Char} (h : Bottom p) : builtinLayer p = some ⟨-10, 0⟩ := by
  unfold builtinLayer
  simp only
  rcases h with h | h | ⟨h, h1, h2⟩
  · rw [h.ispath "/turf/open/floor/plating/" (by decide +kernel)]
    rfl
  · rw [h.ispath "/turf/open/space/" (by decide +kernel)]
    simp
  · have h := h.ispath "/turf/" (by decide +kernel)
    have h1 := Is.not h1 "/turf/open/floor/" (by decide +kernel)
    have h2 := Is.not h2 "/turf/closed/" (by decide +kernel)
    have h3 : ispath p "/turf/closed/mineral/".toList = false := by
      rw [← Bool.not_eq_true] at h2 ⊢
      exact fun e => h2 (on e (by decide +kernel))
    rw [h, h1, h2, h3]
    generalize ispath p "/turf/open/floor/plating/".toList = x
    generalize ispath p "/turf/open/space/".toList = y
    cases x <;> cases y <;> rfl

theorem underFloor_layer {p : List Char} (h : UnderFloor p) :
    ∃ l, builtinLayer p = some l ∧ (l = ⟨-8, 0⟩ ∨ l = ⟨-6, 0⟩ ∨ l = ⟨-5, 0⟩ ∨ l = ⟨-4, 0⟩ ∨ l = .ofF32 (.fin true (7 / 2))) := by
  have go (q : String) (hq : ispath p q.toList = true)
      (h : ∀ r ∈ ["/turf/", "/obj/effect/turf_decal/"], ispath (trim q.toList) r.toList = false ∧
        ispath (trim r.toList) q.toList = false) :
      (∀ r : String, ispath (trim r.toList) "/turf/".toList = true → ispath p r.toList = false) ∧
        ispath p "/obj/effect/turf_decal/".toList = false := by
    constructor
    · intro r hr
      have := off hq (h "/turf/" (by simp)).1 (h "/turf/" (by simp)).2
      rw [← Bool.not_eq_true] at this ⊢
      exact fun e => this (on e hr)
    · exact off hq (h "/obj/effect/turf_decal/" (by simp)).1 (h "/obj/effect/turf_decal/" (by simp)).2
  have turfs : ∀ r ∈ ["/turf/open/floor/plating/", "/turf/open/space/", "/turf/closed/mineral/", "/turf/open/floor/",
      "/turf/closed/", "/turf/"], ispath (trim r.toList) "/turf/".toList = true := by decide +kernel
  have skip (q : String) (hq : ispath p q.toList = true)
      (h : ∀ r ∈ ["/turf/", "/obj/effect/turf_decal/"], ispath (trim q.toList) r.toList = false ∧
        ispath (trim r.toList) q.toList = false) : builtinLayer p =
        if ispath p "/obj/structure/disposalpipe/".toList then some ⟨-6, 0⟩
        else if ispath p "/obj/machinery/atmospherics/pipe/".toList && !(p.tails.any ("visible".toList.isPrefixOf ·)) then
          some ⟨-5, 0⟩
        else if ispath p "/obj/structure/cable/".toList then some ⟨-4, 0⟩
        else if ispath p "/obj/machinery/power/terminal/".toList then some (.ofF32 (.fin true (7 / 2)))
        else if ispath p "/obj/structure/lattice/".toList then some ⟨-8, 0⟩
        else if ispath p "/obj/machinery/navbeacon/".toList then some ⟨-3, 0⟩
        else none := by
    obtain ⟨h1, h2⟩ := go q hq h
    unfold builtinLayer
    simp only
    rw [h1 "/turf/open/floor/plating/" (turfs _ (by simp)), h1 "/turf/open/space/" (turfs _ (by simp)),
      h1 "/turf/closed/mineral/" (turfs _ (by simp)), h1 "/turf/open/floor/" (turfs _ (by simp)),
      h1 "/turf/closed/" (turfs _ (by simp)), h1 "/turf/" (turfs _ (by simp)), h2]
    rfl
  rcases h with h | h | ⟨h, hv⟩ | h | h
  · have h := h.ispath "/obj/structure/lattice/" (by decide +kernel)
    refine ⟨_, ?_, .inl rfl⟩
    rw [skip _ h (by decide +kernel), h,
      off (b := "/obj/structure/disposalpipe/".toList) h (by decide +kernel) (by decide +kernel),
      off (b := "/obj/machinery/atmospherics/pipe/".toList) h (by decide +kernel) (by decide +kernel),
      off (b := "/obj/structure/cable/".toList) h (by decide +kernel) (by decide +kernel),
      off (b := "/obj/machinery/power/terminal/".toList) h (by decide +kernel) (by decide +kernel)]
    rfl
  · have h := h.ispath "/obj/structure/disposalpipe/" (by decide +kernel)
    refine ⟨_, ?_, .inr (.inl rfl)⟩
    rw [skip _ h (by decide +kernel), h]
    rfl
  · have h := h.ispath "/obj/machinery/atmospherics/pipe/" (by decide +kernel)
    refine ⟨_, ?_, .inr (.inr (.inl rfl))⟩
    rw [← visible_iff, Bool.not_eq_true] at hv
    rw [skip _ h (by decide +kernel), h, hv,
      off (b := "/obj/structure/disposalpipe/".toList) h (by decide +kernel) (by decide +kernel)]
    rfl
  · have h := h.ispath "/obj/structure/cable/" (by decide +kernel)
    refine ⟨_, ?_, .inr (.inr (.inr (.inl rfl)))⟩
    rw [skip _ h (by decide +kernel), h,
      off (b := "/obj/structure/disposalpipe/".toList) h (by decide +kernel) (by decide +kernel),
      off (b := "/obj/machinery/atmospherics/pipe/".toList) h (by decide +kernel) (by decide +kernel)]
    rfl
  · have h := h.ispath "/obj/machinery/power/terminal/" (by decide +kernel)
    refine ⟨_, ?_, .inr (.inr (.inr (.inr rfl)))⟩
    rw [skip _ h (by decide +kernel), h,
      off (b := "/obj/structure/disposalpipe/".toList) h (by decide +kernel) (by decide +kernel),
      off (b := "/obj/machinery/atmospherics/pipe/".toList) h (by decide +kernel) (by decide +kernel),
      off (b := "/obj/structure/cable/".toList) h (by decide +kernel) (by decide +kernel)]
    rfl

/-- **C75.** What lies under the floor is drawn before every floor and wall and after plating, space and other turfs,
whatever planes and layers they had (when no layers are configured). -/
theorem floor_hides (under p : List Char) (s t : Sprite) (h : UnderFloor under) :
    (Solid p → (applyFancy [] p t).le (applyFancy [] under s) = false) ∧
    (Bottom p → (applyFancy [] under s).le (applyFancy [] p t) = false) := by
  obtain ⟨l, hl, hv⟩ := underFloor_layer h
  have e (q : List Char) (u : Sprite) (m : Layer) (hm : builtinLayer q = some m) :
      applyFancy [] q u = { u with plane := 0, layer := m } := by
    simp only [applyFancy, fancyLayer, overrideFor, hm]
  have le (u v : Sprite) (m k : Layer) (hm : m.le k = false) :
      Sprite.le { u with plane := 0, layer := m } { v with plane := 0, layer := k } = false := by
    simp [Sprite.le, hm]
  constructor
  · intro hp
    rw [e p t _ (solid_layer hp), e under s _ hl]
    apply le
    rcases hv with rfl | rfl | rfl | rfl | rfl <;> decide +kernel
  · intro hp
    rw [e p t _ (bottom_layer hp), e under s _ hl]
    apply le
    rcases hv with rfl | rfl | rfl | rfl | rfl <;> decide +kernel

example : UnderFloor "/obj/structure/cable/red".toList ∧ Solid "/turf/open/floor/wood".toList ∧
    Bottom "/turf/open/floor/plating/asteroid".toList :=
  ⟨.inr (.inr (.inr (.inl ⟨"/red".toList, by decide +kernel, .inr (by decide +kernel)⟩))),
    .inl ⟨⟨"/wood".toList, by decide +kernel, .inr (by decide +kernel)⟩, by
      unfold Is
      rw [← ispath_spec _ _ (by decide +kernel)]
      decide +kernel⟩,
    .inl ⟨"/asteroid".toList, by decide +kernel, .inr (by decide +kernel)⟩⟩

/-! ## Hiding -/

/-- the thing is of a type that is hidden, or invisible, or a placeholder -/
def Hidden (hide : List (List Char)) (a : Atom) : Prop :=
  (∃ k ∈ hide, Under a.path (clean k)) ∨
  (∃ f, a.var "invisibility" = .float f ∧ F32.lt (F32.ofInt 60) f = true) ∨
  Is a.path "/obj/effect/mapping_helpers" ∨
  ((a.var "icon" = .string "icons/obj/items_and_weapons.dmi".toList ∨
      a.var "icon" = .resource "icons/obj/items_and_weapons.dmi".toList) ∧
    (a.var "icon_state" = .string "syndballoon".toList ∨ a.var "icon_state" = .resource "syndballoon".toList) ∧
    ¬Is a.path "/obj/item/toy/syndicateballoon")

theorem eqStr_iff (c : Cst) (s : List Char) : eqStr c s = true ↔ c = .string s ∨ c = .resource s := by
  cases c <;> simp [eqStr]

/-- **C75.** Exactly those are hidden, whatever the order of the configured paths. -/
theorem hidden_iff (hide : List (List Char)) (hk : ∀ k ∈ hide, (clean k).getLast? ≠ some '/') (a : Atom) :
    hideInvisible hide a = false ↔ Hidden hide a := by
  have h1 : (hide.any fun p => ispath a.path (slashed p)) = true ↔ ∃ k ∈ hide, Under a.path (clean k) := by
    rw [List.any_eq_true]
    constructor
    · rintro ⟨k, h, e⟩
      exact ⟨k, h, (ispath_slashed _ k (hk k h)).1 e⟩
    · rintro ⟨k, h, e⟩
      exact ⟨k, h, (ispath_slashed _ k (hk k h)).2 e⟩
  have h3 : a.istype "/obj/effect/mapping_helpers/" = true ↔ Is a.path "/obj/effect/mapping_helpers" := by
    unfold Atom.istype Is
    rw [ispath_trim]
    exact Iff.of_eq (congrArg _ (by decide +kernel))
  have h4 : a.istype "/obj/item/toy/syndicateballoon/" = true ↔ Is a.path "/obj/item/toy/syndicateballoon" := by
    unfold Atom.istype Is
    rw [ispath_trim]
    exact Iff.of_eq (congrArg _ (by decide +kernel))
  unfold hideInvisible Hidden
  rw [← h1, ← h3, ← h4, ← eqStr_iff, ← eqStr_iff]
  generalize (hide.any fun p => ispath a.path (slashed p)) = x1
  generalize a.istype "/obj/effect/mapping_helpers/" = x3
  generalize a.istype "/obj/item/toy/syndicateballoon/" = x4
  generalize eqStr (a.var "icon") _ = x5
  generalize eqStr (a.var "icon_state") _ = x6
  generalize a.var "invisibility" = c
  cases c <;> cases x1 <;> cases x3 <;> cases x4 <;> cases x5 <;> cases x6 <;> simp

example (a : Atom) (h : a.path = "/obj/effect/landmark/start".toList) :
    hideInvisible ["/obj/effect/landmark/".toList] a = false :=
  (hidden_iff _ (by simp only [List.mem_singleton, forall_eq]; decide +kernel) a).2
    (.inl ⟨_, List.mem_singleton.2 rfl, "/start".toList, by rw [h]; decide +kernel, .inr (by decide +kernel)⟩)

end Verif.Minimap
