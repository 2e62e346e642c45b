import Verif.Minimap.PassChoice

/-!
# C76: icon smoothing and cables
-/

namespace Verif.Minimap

open Verif.Const Verif.Dmi Verif.Objtree

/-! ## Connections -/

/-- the vertical part of a direction -/
def vertical : Dir → Option Dir
  | .north | .northeast | .northwest => some .north
  | .south | .southeast | .southwest => some .south
  | _ => none

/-- the horizontal part of a direction -/
def horizontal : Dir → Option Dir
  | .east | .northeast | .southeast => some .east
  | .west | .northwest | .southwest => some .west
  | _ => none

/-- the thing is connected to the tile in the direction: something there matches and, for a corner, on both tiles
beside it too -/
def Conn (find : Dir → Bool) (d : Dir) : Prop :=
  find d = true ∧ (∀ v, vertical d = some v → find v = true) ∧ ∀ h, horizontal d = some h → find h = true

/-- one of the two numberings of directions -/
inductive Numbering : (Dir → Nat) → Prop
  | old : Numbering flag16
  | new : Numbering flag20

theorem adjacencies_bits (flag : Dir → Nat) (hf : Numbering flag) (find : Dir → Bool) (d : Dir) :
    adjacencies flag find &&& flag d ≠ 0 ↔ Conn find d := by
  unfold Conn adjacencies checkDiag checkOne
  generalize h1 : find .north = a1
  generalize h2 : find .south = a2
  generalize h3 : find .east = a3
  generalize h4 : find .west = a4
  generalize h5 : find .northeast = a5
  generalize h6 : find .northwest = a6
  generalize h7 : find .southeast = a7
  generalize h8 : find .southwest = a8
  cases d <;> simp only [vertical, horizontal, h1, h2, h3, h4, h5, h6, h7, h8, Option.some.injEq, forall_eq', reduceCtorEq,
    false_implies, implies_true, and_true, true_and, and_self] <;> clear h1 h2 h3 h4 h5 h6 h7 h8 <;>
    cases hf <;> revert a1 a2 a3 a4 a5 a6 a7 a8 <;> decide +kernel

/-! ## Corners -/

/-- what the picture of a corner shows, after its number -/
def CornerText (find : Dir → Bool) (corner v h : Dir) (tv th : String) (t : String) : Prop :=
  (Conn find corner → t = "-f") ∧
  (Conn find v ∧ Conn find h ∧ ¬Conn find corner → t = "-" ++ tv ++ th) ∧
  (Conn find v ∧ ¬Conn find h → t = "-" ++ tv) ∧
  (¬Conn find v ∧ Conn find h → t = "-" ++ th) ∧
  (¬Conn find v ∧ ¬Conn find h → t = "-i")

theorem Conn.parts {find : Dir → Bool} {d v h : Dir} (hc : Conn find d) (hv : vertical d = some v)
    (hh : horizontal d = some h) (ev : vertical v = some v ∧ horizontal v = none)
    (eh : vertical h = none ∧ horizontal h = some h) : Conn find v ∧ Conn find h := by
  have h1 := hc.2.1 v hv
  have h2 := hc.2.2 h hh
  constructor
  · refine ⟨h1, fun x hx => ?_, fun x hx => ?_⟩
    · rw [ev.1] at hx; cases hx; exact h1
    · rw [ev.2] at hx; cases hx
  · refine ⟨h2, fun x hx => ?_, fun x hx => ?_⟩
    · rw [eh.1] at hx; cases hx
    · rw [eh.2] at hx; cases hx; exact h2

theorem corner_text (flag : Dir → Nat) (hf : Numbering flag) (find : Dir → Bool)
    (num : String) (v h c : Dir) (tv th : String) (hv : vertical c = some v) (hh : horizontal c = some h)
    (ev : vertical v = some v ∧ horizontal v = none) (eh : vertical h = none ∧ horizontal h = some h) :
    ∃ t, cornerState flag (adjacencies flag find) (num, (v, tv), (h, th), c) = num ++ t ∧
      CornerText find c v h tv th t := by
  have bv := adjacencies_bits flag hf find v
  have bh := adjacencies_bits flag hf find h
  have bc := adjacencies_bits flag hf find c
  have himp : Conn find c → Conn find v ∧ Conn find h := fun hc => hc.parts hv hh ev eh
  unfold cornerState CornerText
  simp only [bv, bh, bc]
  by_cases h1 : Conn find v
  · by_cases h2 : Conn find h
    · by_cases h3 : Conn find c
      · refine ⟨"-f", ?_, ?_⟩
        · rw [if_pos ⟨bv.2 h1, bh.2 h2⟩, if_pos (bc.2 h3)]
        · simp [h1, h2, h3]
      · refine ⟨"-" ++ tv ++ th, ?_, ?_⟩
        · rw [if_pos ⟨bv.2 h1, bh.2 h2⟩, if_neg (mt bc.1 h3)]
          simp only [String.append_assoc]
        · simp [h1, h2, h3]
    · refine ⟨"-" ++ tv, ?_, ?_⟩
      · rw [if_neg fun e => h2 (bh.1 e.2), if_pos (bv.2 h1)]
        simp only [String.append_assoc]
      · simp [h1, h2, mt himp fun e => h2 e.2]
  · by_cases h2 : Conn find h
    · refine ⟨"-" ++ th, ?_, ?_⟩
      · rw [if_neg fun e => h1 (bv.1 e.1), if_neg (mt bv.1 h1), if_pos (bh.2 h2)]
        simp only [String.append_assoc]
      · simp [h1, h2, mt himp fun e => h1 e.1]
    · refine ⟨"-i", ?_, ?_⟩
      · rw [if_neg fun e => h1 (bv.1 e.1), if_neg (mt bv.1 h1), if_neg (mt bh.1 h2)]
      · simp [h1, h2, mt himp fun e => h1 e.1]

/-- a copy of the sprite of a thing with another state, and with the icon in `smooth_icon` if there is one -/
def Copy (a : Atom) (state : List Char) (s : Sprite) : Prop :=
  ∃ icon, s = { a.sprite with iconState := state, icon := icon } ∧
    (∀ f, a.var "smooth_icon" = .string f ∨ a.var "smooth_icon" = .resource f → icon = f) ∧
    ((∀ f, a.var "smooth_icon" ≠ .string f ∧ a.var "smooth_icon" ≠ .resource f) → icon = a.sprite.icon)

theorem smoothSprite_copy (a : Atom) (state : List Char) : Copy a state (smoothSprite a state) := by
  refine ⟨_, rfl, ?_, ?_⟩
  · rintro f (h | h) <;> rw [h] <;> rfl
  · intro h
    generalize a.var "smooth_icon" = c at h
    cases c <;> first | rfl | exact absurd rfl (h _).1 | exact absurd rfl (h _).2

/-- the four corners drawn in place of the thing: 1 north-west, 2 north-east, 3 south-west, 4 south-east -/
def FourCorners (find : Dir → Bool) (a : Atom) (l : List Sprite) : Prop :=
  ∃ s1 s2 s3 s4 t1 t2 t3 t4, l = [s1, s2, s3, s4] ∧
    (Copy a ("1" ++ t1 : String).toList s1 ∧ CornerText find .northwest .north .west "n" "w" t1) ∧
    (Copy a ("2" ++ t2 : String).toList s2 ∧ CornerText find .northeast .north .east "n" "e" t2) ∧
    (Copy a ("3" ++ t3 : String).toList s3 ∧ CornerText find .southwest .south .west "s" "w" t3) ∧
    (Copy a ("4" ++ t4 : String).toList s4 ∧ CornerText find .southeast .south .east "s" "e" t4)

theorem cardinal_corners (flag : Dir → Nat) (hf : Numbering flag) (find : Dir → Bool) (a : Atom) :
    FourCorners find a (cardinalSmooth flag a (adjacencies flag find)) := by
  obtain ⟨t1, e1, h1⟩ := corner_text flag hf find "1" .north .west .northwest "n" "w" rfl rfl ⟨rfl, rfl⟩ ⟨rfl, rfl⟩
  obtain ⟨t2, e2, h2⟩ := corner_text flag hf find "2" .north .east .northeast "n" "e" rfl rfl ⟨rfl, rfl⟩ ⟨rfl, rfl⟩
  obtain ⟨t3, e3, h3⟩ := corner_text flag hf find "3" .south .west .southwest "s" "w" rfl rfl ⟨rfl, rfl⟩ ⟨rfl, rfl⟩
  obtain ⟨t4, e4, h4⟩ := corner_text flag hf find "4" .south .east .southeast "s" "e" rfl rfl ⟨rfl, rfl⟩ ⟨rfl, rfl⟩
  refine ⟨_, _, _, _, t1, t2, t3, t4, rfl, ⟨?_, h1⟩, ⟨?_, h2⟩, ⟨?_, h3⟩, ⟨?_, h4⟩⟩
  · rw [← e1]; exact smoothSprite_copy a _
  · rw [← e2]; exact smoothSprite_copy a _
  · rw [← e3]; exact smoothSprite_copy a _
  · rw [← e4]; exact smoothSprite_copy a _

/-! ## Diagonal walls -/

/-- the thing is connected on exactly two sides, those beside the corner -/
def Elbow (find : Dir → Bool) (corner : Dir) : Prop :=
  ∃ v h, vertical corner = some v ∧ horizontal corner = some h ∧ v ≠ h ∧
    find v = true ∧ find h = true ∧ find v.flip = false ∧ find h.flip = false

/-- the name of a corner -/
def cornerName : Dir → String
  | .northwest => "nw"
  | .northeast => "ne"
  | .southwest => "sw"
  | .southeast => "se"
  | _ => ""

theorem presets_elbow (flag : Dir → Nat) (hf : Numbering flag) (find : Dir → Bool) :
    (∀ q, Elbow find q → reverseNdir flag (adjacencies flag find) = some q ∧
      (Conn find q → presets flag (adjacencies flag find) =
        some ("d-" ++ cornerName q.flip, "d-" ++ cornerName q.flip ++ "-1")) ∧
      (¬Conn find q → presets flag (adjacencies flag find) =
        some ("d-" ++ cornerName q.flip, "d-" ++ cornerName q.flip ++ "-0"))) ∧
    ((∀ q, ¬Elbow find q) → presets flag (adjacencies flag find) = none) := by
  have elbow (q v h : Dir) (hv : vertical q = some v) (hh : horizontal q = some h) (hne : v ≠ h) :
      Elbow find q ↔ find v = true ∧ find h = true ∧ find v.flip = false ∧ find h.flip = false := by
    constructor
    · rintro ⟨v', h', e1, e2, _, e⟩
      rw [hv] at e1
      rw [hh] at e2
      cases e1
      cases e2
      exact e
    · exact fun e => ⟨v, h, hv, hh, hne, e⟩
  have no (q : Dir) (h : vertical q = none ∨ horizontal q = none) : ¬Elbow find q := by
    rintro ⟨v', h', e1, e2, _⟩
    rcases h with h | h
    · rw [h] at e1; cases e1
    · rw [h] at e2; cases e2
  have n1 := elbow .northwest .north .west rfl rfl (by decide)
  have n2 := elbow .northeast .north .east rfl rfl (by decide)
  have n3 := elbow .southwest .south .west rfl rfl (by decide)
  have n4 := elbow .southeast .south .east rfl rfl (by decide)
  have c1 := adjacencies_bits flag hf find
  constructor
  · intro q
    rw [← c1 q]
    have m1 := no .north (.inr rfl)
    have m2 := no .south (.inr rfl)
    have m3 := no .east (.inl rfl)
    have m4 := no .west (.inl rfl)
    clear no elbow c1
    cases q <;> simp only [n1, n2, n3, n4, m1, m2, m3, m4, Dir.flip, false_implies] <;> clear n1 n2 n3 n4 m1 m2 m3 m4 <;>
      unfold adjacencies checkDiag checkOne <;>
      generalize find .north = a1 <;> generalize find .south = a2 <;> generalize find .east = a3 <;>
      generalize find .west = a4 <;> generalize find .northeast = a5 <;> generalize find .northwest = a6 <;>
      generalize find .southeast = a7 <;> generalize find .southwest = a8 <;>
      (rintro ⟨rfl, rfl, rfl, rfl⟩; refine ⟨?_, ?_, ?_⟩) <;> cases hf <;> revert a5 a6 a7 a8 <;> decide +kernel
  · intro h
    have h1 := h .northwest
    have h2 := h .northeast
    have h3 := h .southwest
    have h4 := h .southeast
    rw [n1] at h1
    rw [n2] at h2
    rw [n3] at h3
    rw [n4] at h4
    clear h no elbow c1 n1 n2 n3 n4
    simp only [Dir.flip] at h1 h2 h3 h4
    unfold adjacencies checkDiag checkOne
    revert h1 h2 h3 h4
    generalize find .north = a1
    generalize find .south = a2
    generalize find .east = a3
    generalize find .west = a4
    generalize find .northeast = a5
    generalize find .northwest = a6
    generalize find .southeast = a7
    generalize find .southwest = a8
    cases hf <;> revert a1 a2 a3 a4 a5 a6 a7 a8 <;> decide +kernel

/-- the three tiles behind a corner: opposite it, then the two beside that -/
def behind : Dir → List Dir
  | .northwest => [.southeast, .east, .south]
  | .northeast => [.southwest, .south, .west]
  | .southwest => [.northeast, .north, .east]
  | .southeast => [.northwest, .west, .north]
  | _ => []

/-- the first open turf on the tiles -/
def openOn (n : List (List Atom)) (ds : List Dir) : Option Atom := (ds.flatMap (offset n)).find? (·.istype "/turf/open/")

theorem openTurf_eq (n : List (List Atom)) (ds : List Dir) : openTurf n ds = openOn n ds := by
  unfold openOn
  induction ds with
  | nil => rfl
  | cons d ds ih =>
    rw [openTurf, List.flatMap_cons, List.find?_append]
    cases (offset n d).find? (·.istype "/turf/open/") with
    | some a => rfl
    | none => rw [ih]; rfl

/-- what is drawn under a diagonal wall: space if the wall says so, else the open turf behind it, else plating -/
def Beneath (types : List Char → Option Atom) (n : List (List Atom)) (a : Atom) (corner : Dir) (t : Atom) : Prop :=
  ((indexStr (a.var "fixed_underlay") "space".toList).isSome = true ∧ types "/turf/open/space/basic".toList = some t) ∨
  ((indexStr (a.var "fixed_underlay") "space".toList).isSome = false ∧
    (openOn n (behind corner) = some t ∨
      openOn n (behind corner) = none ∧ types "/turf/open/floor/plating".toList = some t))

theorem underlay_elbow (types : List Char → Option Atom) (flag : Dir → Nat) (hf : Numbering flag) (strict : Bool)
    (n : List (List Atom)) (a : Atom) (find : Dir → Bool) (q : Dir) (hq : Elbow find q) (t : Atom) (s : Sprite)
    (ht : Beneath types n a q t) (hs : fromVars t = some s) :
    underlay types flag strict n a (adjacencies flag find) = some [s] := by
  have hr := ((presets_elbow flag hf find).1 q hq).1
  have hb : [q.flip, q.flip.ccw45, q.flip.cw45] = behind q := by
    obtain ⟨v, h, hv, hh, _⟩ := hq
    cases q <;> first | rfl | (cases hv; done) | (cases hh; done)
  unfold underlay
  rcases ht with ⟨h1, h2⟩ | ⟨h1, h2⟩
  · rw [if_pos h1, h2, Option.bind_some, hs]
    rfl
  · rw [if_neg (by rw [h1]; simp), hr]
    simp only
    rw [hb, openTurf_eq]
    rcases h2 with h2 | ⟨h2, h3⟩
    · rw [h2]
      simp only [hs, Option.map_some]
    · rw [h2]
      simp only [h3, Option.bind_some, hs, Option.map_some]

/-- a wall connected on two sides that meet is drawn as a diagonal: what is beneath it if it is a wall turf, and two
pictures named after the corner left open, the second telling whether the corner it fills is connected -/
def Diagonal (types : List Char → Option Atom) (n : List (List Atom)) (find : Dir → Bool) (a : Atom) (q : Dir)
    (l : List Sprite) : Prop :=
  ∃ u s1 s2 t, l = u ++ [s1, s2] ∧ Copy a ("d-" ++ cornerName q.flip).toList s1 ∧
    Copy a ("d-" ++ cornerName q.flip ++ t).toList s2 ∧ (Conn find q → t = "-1") ∧ (¬Conn find q → t = "-0") ∧
    (a.istype "/turf/closed/wall/" = false → u = []) ∧
    (a.istype "/turf/closed/wall/" = true → ∀ b s, Beneath types n a q b → fromVars b = some s → u = [s])

theorem diagonal_looks (types : List Char → Option Atom) (flag : Dir → Nat) (hf : Numbering flag) (strict : Bool)
    (n : List (List Atom)) (a : Atom) (find : Dir → Bool) :
    ((∀ q, ¬Elbow find q) → ∃ l, diagonalSmooth types flag strict n a (adjacencies flag find) = some l ∧
      FourCorners find a l) ∧
    (∀ q, Elbow find q → a.istype "/turf/closed/wall/" = false ∨ (∃ b s, Beneath types n a q b ∧ fromVars b = some s) →
      ∃ l, diagonalSmooth types flag strict n a (adjacencies flag find) = some l ∧ Diagonal types n find a q l) := by
  obtain ⟨h1, h2⟩ := presets_elbow flag hf find
  constructor
  · intro h
    refine ⟨_, ?_, cardinal_corners flag hf find a⟩
    unfold diagonalSmooth
    rw [h2 h]
  · intro q hq hb
    obtain ⟨_, hc, hnc⟩ := h1 q hq
    have hp : ∃ t, presets flag (adjacencies flag find) =
        some ("d-" ++ cornerName q.flip, "d-" ++ cornerName q.flip ++ t) ∧ (Conn find q → t = "-1") ∧
          (¬Conn find q → t = "-0") := by
      by_cases h : Conn find q
      · exact ⟨"-1", hc h, fun _ => rfl, fun e => absurd h e⟩
      · exact ⟨"-0", hnc h, fun e => absurd e h, fun _ => rfl⟩
    obtain ⟨t, hp, t1, t2⟩ := hp
    unfold diagonalSmooth
    rw [hp]
    simp only
    by_cases hw : a.istype "/turf/closed/wall/" = true
    · rcases hb with hb | ⟨b, s, hb, hs⟩
      · rw [hw] at hb; cases hb
      · rw [if_pos hw, underlay_elbow types flag hf strict n a find q hq b s hb hs]
        refine ⟨_, rfl, _, _, _, t, rfl, smoothSprite_copy a _, smoothSprite_copy a _, t1, t2, fun e => ?_, ?_⟩
        · rw [hw] at e; cases e
        · intro _ b' s' hb' hs'
          have := underlay_elbow types flag hf strict n a find q hq b' s' hb' hs'
          rw [underlay_elbow types flag hf strict n a find q hq b s hb hs] at this
          exact Option.some.inj this
    · rw [if_neg hw]
      exact ⟨_, rfl, [], _, _, t, rfl, smoothSprite_copy a _, smoothSprite_copy a _, t1, t2, fun _ => rfl,
        fun e => absurd e hw⟩

/-! ## What matches -/

/-- the text in a list of constants -/
def Lists (l : List (Cst × Option Cst)) (s : List Char) : Prop := ∃ p ∈ l, p.1 = .string s ∨ p.1 = .resource s

theorem smoothlist_iff (l : List (Cst × Option Cst)) (s : List Char) : smoothlistContains l s = true ↔ Lists l s := by
  unfold smoothlistContains Lists
  rw [List.any_eq_true]
  exact exists_congr fun p => and_congr_right fun _ => eqStr_iff p.1 s

theorem cutLast_eq (m c : List Char) (hc : '/' ∉ c) : cutLast (m ++ '/' :: c) = m := by
  unfold cutLast
  have h : ∀ d : List Char, '/' ∉ d → (d ++ '/' :: m.reverse).dropWhile (· ≠ '/') = '/' :: m.reverse := by
    intro d
    induction d with
    | nil => intro _; simp
    | cons x d ih =>
      intro hd
      simp only [List.mem_cons, not_or] at hd
      rw [List.cons_append, List.dropWhile_cons, if_pos (by simp [Ne.symm hd.1])]
      exact ih hd.2
  rw [List.reverse_append, List.reverse_cons, List.append_assoc, List.singleton_append, h _ (by simpa using hc)]
  simp

/-- a text starting with a slash has a last slash -/
theorem last_slash (p : List Char) (h : '/' ∈ p) : ∃ m c, p = m ++ '/' :: c ∧ '/' ∉ c := by
  induction p with
  | nil => cases h
  | cons x p ih =>
    by_cases hp : '/' ∈ p
    · obtain ⟨m, c, e, hc⟩ := ih hp
      exact ⟨x :: m, c, by rw [e]; rfl, hc⟩
    · rcases List.mem_cons.1 h with rfl | h
      · exact ⟨[], p, rfl, hp⟩
      · exact absurd h hp

theorem ups_iff (p : List Char) (hp : p = [] ∨ p.head? = some '/') (s : List Char) :
    s ∈ ups p ↔ s ≠ [] ∧ Under p s := by
  have key : ∀ n p, p.length ≤ n → (p = [] ∨ p.head? = some '/') → (s ∈ upsGo n p ↔ s ≠ [] ∧ Under p s) := by
    intro n
    induction n with
    | zero =>
      intro p hl _
      have : p = [] := List.length_eq_zero_iff.1 (by omega)
      subst this
      constructor
      · intro h; cases h
      · rintro ⟨h1, r, e, _⟩
        exact absurd (List.append_eq_nil_iff.1 e.symm).1 h1
    | succ n ih =>
      intro p hl hp
      rw [upsGo]
      split
      · rename_i hp
        subst hp
        constructor
        · intro h; cases h
        · rintro ⟨h1, r, e, _⟩
          exact absurd (List.append_eq_nil_iff.1 e.symm).1 h1
      · rename_i hne
        have hh := hp.resolve_left hne
        have hmem : '/' ∈ p := by
          cases p with
          | nil => cases hh
          | cons x p => simp at hh; simp [hh]
        obtain ⟨m, c, rfl, hc⟩ := last_slash p hmem
        rw [cutLast_eq m c hc, List.mem_cons, ih m (by simp at hl; omega) (by
          cases m with
          | nil => exact .inl rfl
          | cons x m => simp at hh; simp [hh])]
        constructor
        · rintro (rfl | ⟨h1, h2⟩)
          · exact ⟨by simp, Under.refl _⟩
          · exact ⟨h1, Under.trans ⟨'/' :: c, rfl, .inr rfl⟩ h2⟩
        · rintro ⟨h1, h2⟩
          rcases Under.dir hc h2 with e | h2
          · exact .inl e.symm
          · exact .inr ⟨h1, h2⟩
  exact key _ p (Nat.le_refl _) hp

/-- the thing `b` is one that `a` connects to (2016): its type is in the list `canSmoothWith`, or below one in that
list if `more`; without a list it has the same type -/
def Joins16 (a : Atom) (more : Bool) (b : Atom) : Prop :=
  (∃ l, a.var "canSmoothWith" = .list l ∧ ∃ s, Lists l.toList s ∧
    if more then s ≠ [] ∧ Under b.path s else b.path = s) ∨
  ((∀ l, a.var "canSmoothWith" ≠ .list l) ∧ b.path = a.path)

/-- the same (2020, 2025): one of its `smoothing_groups` is in the list `canSmoothWith` -/
def Joins20 (a : Atom) (b : Atom) : Prop :=
  (∃ l m, a.var "canSmoothWith" = .list l ∧ b.var "smoothing_groups" = .list m ∧
    ∃ x ∈ l.toList, ∃ y ∈ m.toList, x.1.beq y.1 = true) ∨
  ((∀ l, a.var "canSmoothWith" ≠ .list l) ∧ b.path = a.path)

/-- one of the things on the tile is; a tile with nothing on it (outside the map) counts if `border` -/
def OnTile (joins : Atom → Prop) (border : Bool) (tile : List Atom) : Prop :=
  (tile = [] ∧ border = true) ∨ ∃ b ∈ tile, joins b

/-- **C76.** What connects in a direction, 2016. -/
theorem match16 (a : Atom) (n : List (List Atom)) (flags : Int) (d : Dir)
    (hp : ∀ b ∈ offset n d, b.path = [] ∨ b.path.head? = some '/') :
    find16 a n flags d = true ↔ OnTile (Joins16 a (hasBit flags 1)) (hasBit flags 3) (offset n d) := by
  unfold find16 OnTile Joins16
  simp only
  generalize offset n d = l at *
  cases l with
  | nil => simp
  | cons x l =>
    rw [if_neg (by simp)]
    simp only [reduceCtorEq, false_and, false_or]
    cases hv : a.var "canSmoothWith" with
    | list args =>
      simp only [Cst.list.injEq, exists_eq_left', forall_eq', not_true_eq_false, ne_eq, false_and, or_false]
      cases hasBit flags 1 with
      | true =>
        simp only [if_true, List.any_eq_true]
        refine exists_congr fun b => and_congr_right fun hb => ?_
        constructor
        · rintro ⟨s, hs, h⟩
          exact ⟨s, (smoothlist_iff _ _).1 h, (ups_iff _ (hp b hb) s).1 hs⟩
        · rintro ⟨s, h, hs⟩
          exact ⟨s, (ups_iff _ (hp b hb) s).2 hs, (smoothlist_iff _ _).2 h⟩
      | false =>
        simp only [Bool.false_eq_true, if_false, List.any_eq_true, smoothlist_iff, exists_eq_right']
    | _ => simp [List.any_eq_true]

/-- **C76.** What connects in a direction, 2020 and 2025. -/
theorem match20 (a : Atom) (n : List (List Atom)) (flags : Int) (d : Dir) :
    find20 a n flags d = true ↔ OnTile (Joins20 a) (hasBit flags 3) (offset n d) := by
  unfold find20 OnTile Joins20
  simp only
  generalize offset n d = l
  cases l with
  | nil => simp
  | cons x l =>
    rw [if_neg (by simp)]
    simp only [reduceCtorEq, false_and, false_or]
    cases hv : a.var "canSmoothWith" with
    | list args =>
      simp only [Cst.list.injEq, exists_and_left, exists_eq_left', forall_eq', not_true_eq_false, ne_eq, false_and,
        or_false, List.any_eq_true]
      refine exists_congr fun b => and_congr_right fun _ => ?_
      cases hw : b.var "smoothing_groups" with
      | list m => simp [overlap, List.any_eq_true]
      | _ => simp
    | _ => simp [List.any_eq_true]

/-! ## The looks -/

/-- the flags of a thing: its variable if it is a number, else 0 -/
def Flags (a : Atom) (key : String) (flags : Int) : Prop :=
  (|flags| ≤ 2 ^ 24 ∧ a.var key = .float (F32.ofInt flags)) ∨ (flags = 0 ∧ ∀ f, a.var key ≠ .float f)

theorem Flags.eq {a : Atom} {key : String} {flags : Int} (h : Flags a key flags) :
    (a.var key).toInt.getD 0 = flags := by
  rcases h with ⟨hn, h⟩ | ⟨rfl, h⟩
  · rw [h]
    simp only [Cst.toInt, F32.toI32_ofInt _ hn, Option.getD_some]
  · generalize a.var key = c at h ⊢
    cases c <;> first | rfl | exact absurd rfl (h _)

/-- **C76.** 2016: without either smoothing flag a thing looks as it does; otherwise four corners, or the diagonal of a
wall, take its place, according to what it is connected to.  It does not panic if what is to be drawn under a wall
exists. -/
theorem smooth16_looks (types : List Char → Option Atom) (a : Atom) (n : List (List Atom)) (flags : Int)
    (hflags : Flags a "smooth" flags) :
    (hasBit flags 0 = false ∧ hasBit flags 1 = false → smooth16 types a n = some ([], true)) ∧
    (hasBit flags 0 = true ∨ hasBit flags 1 = true →
      (hasBit flags 2 = false ∨ (∀ q, ¬Elbow (find16 a n flags) q) →
        ∃ l, smooth16 types a n = some (l, false) ∧ FourCorners (find16 a n flags) a l) ∧
      (hasBit flags 2 = true → ∀ q, Elbow (find16 a n flags) q →
        a.istype "/turf/closed/wall/" = false ∨ (∃ b s, Beneath types n a q b ∧ fromVars b = some s) →
        ∃ l, smooth16 types a n = some (l, false) ∧ Diagonal types n (find16 a n flags) a q l)) := by
  unfold smooth16
  simp only [hflags.eq]
  obtain ⟨d1, d2⟩ := diagonal_looks types flag16 .old true n a (find16 a n flags)
  constructor
  · rintro ⟨h0, h1⟩
    rw [h0, h1]
    rfl
  · intro h
    have h' : (hasBit flags 0 || hasBit flags 1) = true := by rcases h with h | h <;> rw [h] <;> simp
    rw [if_pos h']
    constructor
    · intro h2
      by_cases hb : hasBit flags 2 = true
      · rcases h2 with h2 | h2
        · rw [hb] at h2; cases h2
        · obtain ⟨l, e, hl⟩ := d1 h2
          rw [if_pos hb, e]
          exact ⟨l, rfl, hl⟩
      · rw [if_neg hb]
        exact ⟨_, rfl, cardinal_corners flag16 .old _ a⟩
    · intro hb q hq hu
      obtain ⟨l, e, hl⟩ := d2 q hq hu
      rw [if_pos hb, e]
      exact ⟨l, rfl, hl⟩

/-- the numbers the directions have in the names of the icon states -/
def DirNumber : Dir → Nat → Prop
  | .north, k => k = 1
  | .south, k => k = 2
  | .east, k => k = 4
  | .west, k => k = 8
  | .northeast, k => k = 16
  | .southeast, k => k = 32
  | .southwest, k => k = 64
  | .northwest, k => k = 128

/-- the sum of the numbers of the directions connected -/
def Junction (find : Dir → Bool) (j : Nat) : Prop :=
  ∃ f : Dir → Nat, (∀ d, (Conn find d → DirNumber d (f d)) ∧ (¬Conn find d → f d = 0)) ∧
    j = f .north + f .south + f .east + f .west + f .northeast + f .southeast + f .southwest + f .northwest

theorem junction_adjacencies (find : Dir → Bool) : Junction find (adjacencies flag20 find) := by
  refine ⟨fun d => if adjacencies flag20 find &&& flag20 d ≠ 0 then flag20 d else 0, fun d => ?_, ?_⟩
  · rw [← adjacencies_bits flag20 .new find d]
    exact ⟨fun h => by simp only [if_pos h]; cases d <;> rfl, fun h => if_neg h⟩
  · have hlt : adjacencies flag20 find < 256 := by
      unfold adjacencies checkDiag checkOne
      generalize find .north = a1
      generalize find .south = a2
      generalize find .east = a3
      generalize find .west = a4
      generalize find .northeast = a5
      generalize find .northwest = a6
      generalize find .southeast = a7
      generalize find .southwest = a8
      revert a1 a2 a3 a4 a5 a6 a7 a8
      decide +kernel
    generalize adjacencies flag20 find = j at *
    revert j
    decide +kernel

/-- a loose movable thing connects to nothing (2020, 2025) -/
def Loose (a : Atom) : Prop :=
  a.istype "/atom/movable/" = true ∧ (a.var "can_be_unanchored").toBool = true ∧ (a.var "anchored").toBool = false

/-- what `match20` describes, unless the thing is loose -/
def Finds (a : Atom) (n : List (List Atom)) (flags : Int) (find : Dir → Bool) : Prop :=
  (Loose a → ∀ d, find d = false) ∧ (¬Loose a → ∀ d, find d = find20 a n flags d)

theorem adjacencies20_eq (a : Atom) (n : List (List Atom)) (flags : Int) :
    ∃ find, Finds a n flags find ∧ adjacencies20 a n flags = adjacencies flag20 find := by
  have hl : (a.istype "/atom/movable/" && ((a.var "can_be_unanchored").toBool && !(a.var "anchored").toBool)) = true ↔
      Loose a := by
    unfold Loose
    simp
  unfold adjacencies20
  by_cases h : Loose a
  · rw [if_pos (hl.2 h)]
    exact ⟨fun _ => false, ⟨fun _ _ => rfl, fun e => absurd h e⟩, by decide +kernel⟩
  · rw [if_neg (mt hl.1 h)]
    exact ⟨_, ⟨fun e => absurd e h, fun _ _ => rfl⟩, rfl⟩

/-- connected on a single side -/
def Single (find : Dir → Bool) (d : Dir) : Prop :=
  d.isDiagonal = false ∧ ∀ e : Dir, e.isDiagonal = false → (find e = true ↔ e = d)

/-- `-d` is added to the state of a turf connected on two sides that meet, or on a single side -/
def Slanted (find : Dir → Bool) : Prop := (∃ q, Elbow find q) ∨ ∃ d, Single find d

theorem single_iff (find : Dir → Bool) (d : Dir) : Single find d ↔
    (d = .north ∧ find .north = true ∧ find .south = false ∧ find .east = false ∧ find .west = false) ∨
    (d = .south ∧ find .north = false ∧ find .south = true ∧ find .east = false ∧ find .west = false) ∨
    (d = .east ∧ find .north = false ∧ find .south = false ∧ find .east = true ∧ find .west = false) ∨
    (d = .west ∧ find .north = false ∧ find .south = false ∧ find .east = false ∧ find .west = true) := by
  have all (P : Dir → Prop) : (∀ e : Dir, P e) ↔ P .north ∧ P .south ∧ P .east ∧ P .west ∧ P .northeast ∧ P .northwest ∧
      P .southeast ∧ P .southwest := by
    constructor
    · intro h
      exact ⟨h _, h _, h _, h _, h _, h _, h _, h _⟩
    · rintro ⟨h1, h2, h3, h4, h5, h6, h7, h8⟩ e
      cases e <;> assumption
  unfold Single
  rw [all]
  cases d <;> simp [Dir.isDiagonal]

theorem reverse_single (find : Dir → Bool) (d : Dir) (h : Single find d) :
    reverseNdir flag20 (adjacencies flag20 find) = some d := by
  rw [single_iff] at h
  revert h
  unfold adjacencies checkDiag checkOne
  generalize find .north = a1
  generalize find .south = a2
  generalize find .east = a3
  generalize find .west = a4
  generalize find .northeast = a5
  generalize find .northwest = a6
  generalize find .southeast = a7
  generalize find .southwest = a8
  rintro (⟨rfl, rfl, rfl, rfl, rfl⟩ | ⟨rfl, rfl, rfl, rfl, rfl⟩ | ⟨rfl, rfl, rfl, rfl, rfl⟩ | ⟨rfl, rfl, rfl, rfl, rfl⟩) <;>
    revert a5 a6 a7 a8 <;> decide +kernel

theorem elbow_intro {find : Dir → Bool} (q v h : Dir) (hv : vertical q = some v) (hh : horizontal q = some h) (hne : v ≠ h)
    (h1 : find v = true) (h2 : find h = true) (h3 : find v.flip = false) (h4 : find h.flip = false) : Elbow find q :=
  ⟨v, h, hv, hh, hne, h1, h2, h3, h4⟩

theorem reverse_slanted (find : Dir → Bool) :
    (reverseNdir flag20 (adjacencies flag20 find)).isSome = true ↔ Slanted find := by
  constructor
  · intro h
    by_contra hs
    have hnp := (presets_elbow flag20 .new find).2 fun q hq => hs (.inl ⟨q, hq⟩)
    have h1 : ∀ d, ¬Single find d := fun d hd => hs (.inr ⟨d, hd⟩)
    have k1 := h1 .north
    have k2 := h1 .south
    have k3 := h1 .east
    have k4 := h1 .west
    simp only [single_iff, reduceCtorEq, false_and, false_or, or_false, true_and] at k1 k2 k3 k4
    clear hs h1
    revert h hnp k1 k2 k3 k4
    unfold adjacencies checkDiag checkOne
    generalize find .north = a1
    generalize find .south = a2
    generalize find .east = a3
    generalize find .west = a4
    generalize find .northeast = a5
    generalize find .northwest = a6
    generalize find .southeast = a7
    generalize find .southwest = a8
    revert a1 a2 a3 a4 a5 a6 a7 a8
    decide +kernel
  · rintro (⟨q, hq⟩ | ⟨d, hd⟩)
    · rw [((presets_elbow flag20 .new find).1 q hq).1]
      rfl
    · rw [reverse_single find d hd]
      rfl

/-- the first part of the state -/
def Base (a : Atom) (t : List Char) : Prop :=
  (∀ s, a.var "base_icon_state" = .string s → t = s) ∧ ((∀ s, a.var "base_icon_state" ≠ .string s) → t = [])

theorem base_eq (a : Atom) : Base a (((a.var "base_icon_state").asStr).getD []) := by
  unfold Base
  generalize a.var "base_icon_state" = c
  constructor
  · rintro s rfl; rfl
  · intro h
    cases c <;> first | rfl | exact absurd rfl (h _)

/-- `-d` belongs to the state, and something to be drawn underneath -/
def Cut (a : Atom) (flags : Int) (find : Dir → Bool) : Prop :=
  Is a.path "/turf/closed" ∧ hasBit flags 2 = true ∧ Slanted find

theorem bitmask_looks (types : List Char → Option Atom) (late : Bool) (n : List (List Atom)) (a : Atom) (flags : Int)
    (find : Dir → Bool) (hlate : late = false ∨ ∃ t, a.var "post_init_icon_state" = .null t) :
    ∃ j base, Junction find j ∧ Base a base ∧
      (Is a.path "/turf/open/floor" → (a.var "broken").toBool = true ∨ (a.var "burnt").toBool = true →
        bitmaskSmooth types late n a (adjacencies flag20 find) flags = some ([], true)) ∧
      (¬(Is a.path "/turf/open/floor" ∧ ((a.var "broken").toBool = true ∨ (a.var "burnt").toBool = true)) →
        ¬Cut a flags find →
        ∃ s, bitmaskSmooth types late n a (adjacencies flag20 find) flags = some ([s], false) ∧
          Copy a (base ++ '-' :: (toString j).toList) s) ∧
      (Cut a flags find → ∀ q, Elbow find q → ∀ b u, Beneath types n a q b → fromVars b = some u →
        ∃ s, bitmaskSmooth types late n a (adjacencies flag20 find) flags = some ([u, s], false) ∧
          Copy a (base ++ '-' :: (toString j).toList ++ "-d".toList) s) := by
  have i1 : a.istype "/turf/open/floor/" = true ↔ Is a.path "/turf/open/floor" := by
    unfold Atom.istype Is
    rw [ispath_trim]
    exact Iff.of_eq (congrArg _ (by decide +kernel))
  have i2 : a.istype "/turf/closed/" = true ↔ Is a.path "/turf/closed" := by
    unfold Atom.istype Is
    rw [ispath_trim]
    exact Iff.of_eq (congrArg _ (by decide +kernel))
  have hfin : (late && notNull (a.var "post_init_icon_state")) = false := by
    rcases hlate with h | ⟨t, h⟩
    · rw [h]; rfl
    · rw [h]; simp [notNull]
  have hcut : (a.istype "/turf/closed/" && (hasBit flags 2 && (reverseNdir flag20 (adjacencies flag20 find)).isSome)) = true ↔
      Cut a flags find := by
    unfold Cut
    rw [Bool.and_eq_true, Bool.and_eq_true, i2, reverse_slanted]
  refine ⟨adjacencies flag20 find, _, junction_adjacencies find, base_eq a, ?_, ?_, ?_⟩
  · intro hf hb
    unfold bitmaskSmooth
    simp only
    rw [if_pos (i1.2 hf), if_pos (by rcases hb with h | h <;> rw [h] <;> simp)]
  · intro h1 h2
    unfold bitmaskSmooth
    simp only [hfin, Bool.false_eq_true, if_false]
    by_cases hf : Is a.path "/turf/open/floor"
    · have hb : ¬((a.var "broken").toBool || (a.var "burnt").toBool) = true := by
        rw [Bool.or_eq_true]
        exact fun e => h1 ⟨hf, e⟩
      rw [if_pos (i1.2 hf), if_neg hb]
      refine ⟨_, rfl, ?_⟩
      have : ∀ l : List Char, l ++ "".toList = l := fun l => by simp
      rw [this]
      exact smoothSprite_copy a _
    · rw [if_neg (mt i1.1 hf), if_neg (mt hcut.1 h2)]
      refine ⟨_, rfl, ?_⟩
      have : ∀ l : List Char, l ++ "".toList = l := fun l => by simp
      rw [this]
      exact smoothSprite_copy a _
  · intro hc q hq b u hb hu
    have hnf : a.istype "/turf/open/floor/" = false :=
      off (i2.2 hc.1) (by decide +kernel) (by decide +kernel)
    unfold bitmaskSmooth
    simp only [hfin, Bool.false_eq_true, if_false, hnf]
    rw [if_pos (hcut.2 hc), underlay_elbow types flag20 .new false n a find q hq b u hb hu]
    exact ⟨_, rfl, smoothSprite_copy a _⟩

/-- **C76.** 2020: corners by the first flag, numbered states by the second, else the thing looks as it does. -/
theorem smooth20_looks (types : List Char → Option Atom) (a : Atom) (n : List (List Atom)) (flags : Int)
    (hflags : Flags a "smoothing_flags" flags) : ∃ find, Finds a n flags find ∧
    (hasBit flags 0 = false ∧ hasBit flags 1 = false → smooth20 types a n = some ([], true)) ∧
    (hasBit flags 0 = true →
      (hasBit flags 2 = false ∨ (∀ q, ¬Elbow find q) →
        ∃ l, smooth20 types a n = some (l, false) ∧ FourCorners find a l) ∧
      (hasBit flags 2 = true → ∀ q, Elbow find q →
        a.istype "/turf/closed/wall/" = false ∨ (∃ b s, Beneath types n a q b ∧ fromVars b = some s) →
        ∃ l, smooth20 types a n = some (l, false) ∧ Diagonal types n find a q l)) ∧
    (hasBit flags 0 = false ∧ hasBit flags 1 = true →
      smooth20 types a n = bitmaskSmooth types false n a (adjacencies flag20 find) flags) := by
  obtain ⟨find, hf, hadj⟩ := adjacencies20_eq a n flags
  refine ⟨find, hf, ?_⟩
  unfold smooth20
  simp only [hflags.eq, hadj]
  obtain ⟨d1, d2⟩ := diagonal_looks types flag20 .new false n a find
  refine ⟨?_, ?_, ?_⟩
  · rintro ⟨h0, h1⟩
    rw [h0, h1]
    rfl
  · intro h
    rw [if_pos h]
    constructor
    · intro h2
      by_cases hb : hasBit flags 2 = true
      · rcases h2 with h2 | h2
        · rw [hb] at h2; cases h2
        · obtain ⟨l, e, hl⟩ := d1 h2
          rw [if_pos hb, e]
          exact ⟨l, rfl, hl⟩
      · rw [if_neg hb]
        exact ⟨_, rfl, cardinal_corners flag20 .new _ a⟩
    · intro hb q hq hu
      obtain ⟨l, e, hl⟩ := d2 q hq hu
      rw [if_pos hb, e]
      exact ⟨l, rfl, hl⟩
  · rintro ⟨h0, h1⟩
    rw [h0, h1]
    rfl

/-- **C76.** 2025: only numbered states; a thing with `post_init_icon_state` keeps its look. -/
theorem smooth25_looks (types : List Char → Option Atom) (a : Atom) (n : List (List Atom)) (flags : Int)
    (hflags : Flags a "smoothing_flags" flags) : ∃ find, Finds a n flags find ∧
    (hasBit flags 1 = false → smooth25 types a n = some ([], true)) ∧
    (hasBit flags 1 = true → smooth25 types a n = bitmaskSmooth types true n a (adjacencies flag20 find) flags) ∧
    ((∀ t, a.var "post_init_icon_state" ≠ .null t) → ∀ l k, smooth25 types a n = some (l, k) → k = true) := by
  obtain ⟨find, hf, hadj⟩ := adjacencies20_eq a n flags
  refine ⟨find, hf, ?_⟩
  unfold smooth25
  simp only [hflags.eq, hadj]
  refine ⟨?_, ?_, ?_⟩
  · intro h
    rw [h]
    rfl
  · intro h
    rw [h]
    rfl
  · intro h l k
    have hfin : notNull (a.var "post_init_icon_state") = true := by
      generalize a.var "post_init_icon_state" = c at h
      cases c <;> first | rfl | exact absurd rfl (h _)
    unfold bitmaskSmooth
    simp only [hfin, Bool.and_self, if_true]
    intro e
    split at e
    · split at e
      · split at e
        · cases e; rfl
        · cases e; rfl
      · split at e
        · rw [Option.map_eq_some_iff] at e
          obtain ⟨u, _, e⟩ := e
          cases e; rfl
        · cases e; rfl
    · cases e; rfl

/-! ## Disagreements -/

/-- **C76, disagreement.** A list `canSmoothWith` of type paths matches nothing (2016): only texts are compared. -/
theorem typepaths_never_match (a : Atom) (n : List (List Atom)) (flags : Int) (d : Dir) (l : CArgs)
    (hl : a.var "canSmoothWith" = .list l) (hp : ∀ p ∈ l.toList, (∀ s, p.1 ≠ .string s) ∧ ∀ s, p.1 ≠ .resource s)
    (hne : offset n d ≠ []) : find16 a n flags d = false := by
  have hs : ∀ s, smoothlistContains l.toList s = false := by
    intro s
    rw [← Bool.not_eq_true, smoothlist_iff]
    rintro ⟨p, h, e | e⟩
    · exact (hp p h).1 _ e
    · exact (hp p h).2 _ e
  unfold find16
  simp only [hl]
  rw [if_neg (by simpa using hne)]
  simp [hs]

/-- **C76, disagreement.** Whether an object is anchored is never looked at (2020, 2025): no path of an object or mob
starts with `/atom/movable`. -/
theorem anchored_ignored (a : Atom) (h : Is a.path "/obj" ∨ Is a.path "/mob") : ¬Loose a := by
  rintro ⟨h1, _⟩
  unfold Atom.istype at h1
  rcases h with h | h
  · have := off (b := "/atom/movable/".toList) (h.ispath "/obj/" (by decide +kernel)) (by decide +kernel) (by decide +kernel)
    rw [this] at h1
    cases h1
  · have := off (b := "/atom/movable/".toList) (h.ispath "/mob/" (by decide +kernel)) (by decide +kernel) (by decide +kernel)
    rw [this] at h1
    cases h1

/-- **C76, disagreement.** A tile whose things were all filtered out counts as the border of the map. -/
theorem emptied_is_border (a : Atom) (n : List (List Atom)) (flags : Int) (d : Dir) (h : offset n d = [])
    (hb : hasBit flags 3 = true) : find16 a n flags d = true ∧ find20 a n flags d = true := by
  unfold find16 find20
  simp [h, hb]

end Verif.Minimap
