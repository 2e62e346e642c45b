import Verif.Minimap.Smooth
import Verif.Minimap.Passes

/-!
# C77: cables
-/

namespace Verif.Minimap

open Verif.Const Verif.Dmi Verif.Objtree

/-- a thing of the type is on the tile -/
def Has (tile : List Atom) (q : String) : Prop := ∃ b ∈ tile, Is b.path q

/-- the layer of a cable: its text, `l2` if it has none -/
def OfLayer (a : Atom) (t : List Char) : Prop :=
  (∀ s, a.var "cable_layer" = .string s → t = s) ∧ ((∀ s, a.var "cable_layer" ≠ .string s) → t = "l2".toList)

theorem ofLayer_eq (a : Atom) : OfLayer a (cableLayer a) := by
  unfold OfLayer cableLayer
  generalize a.var "cable_layer" = c
  constructor
  · rintro s rfl; rfl
  · intro h
    cases c <;> first | rfl | exact absurd rfl (h _)

theorem OfLayer.unique {a : Atom} {t u : List Char} (h : OfLayer a t) (h' : OfLayer a u) : t = u := by
  unfold OfLayer at h h'
  generalize a.var "cable_layer" = c at *
  by_cases hc : ∃ s, c = .string s
  · obtain ⟨s, rfl⟩ := hc
    rw [h.1 s rfl, h'.1 s rfl]
  · have : ∀ s, c ≠ .string s := fun s e => hc ⟨s, e⟩
    rw [h.2 this, h'.2 this]

/-- cables on the same layer -/
def SameLayer (a b : Atom) : Prop := ∃ t, OfLayer a t ∧ OfLayer b t

theorem sameLayer_iff (a b : Atom) : SameLayer a b ↔ cableLayer b = cableLayer a := by
  constructor
  · rintro ⟨t, h1, h2⟩
    rw [(ofLayer_eq b).unique h2, (ofLayer_eq a).unique h1]
  · intro h
    exact ⟨_, ofLayer_eq a, h ▸ ofLayer_eq b⟩

/-- a cable `a` on the tile `here` is linked to the next tile -/
def Linked (a : Atom) (here there : List Atom) : Prop :=
  (∃ b ∈ there, Is b.path "/obj/structure/cable" ∧ SameLayer a b) ∧
  ¬(Has here "/obj/machinery/power/smes" ∧ Has there "/obj/machinery/power/terminal") ∧
  ¬(¬Has here "/obj/machinery/power/smes" ∧ Has here "/obj/machinery/power/terminal" ∧
    Has there "/obj/machinery/power/smes")

theorem istype_is (b : Atom) (r q : String) (h : trim r.toList = q.toList) : b.istype r = true ↔ Is b.path q := by
  unfold Atom.istype Is
  rw [ispath_trim, h]

theorem any_has (tile : List Atom) (r q : String) (h : trim r.toList = q.toList) :
    tile.any (·.istype r) = true ↔ Has tile q := by
  rw [List.any_eq_true]
  exact exists_congr fun b => and_congr_right fun _ => istype_is b r q h

/-- **C77.** A cable is linked to the next tile when a cable of its layer is there, except between a power storage unit
and a terminal. -/
theorem cable_linked (a : Atom) (n : List (List Atom)) (d : Dir) :
    linked a n d = true ↔ Linked a (center n) (offset n d) := by
  have h1 := any_has (center n) "/obj/machinery/power/terminal/" "/obj/machinery/power/terminal" (by decide +kernel)
  have h2 := any_has (offset n d) "/obj/machinery/power/terminal/" "/obj/machinery/power/terminal" (by decide +kernel)
  have h3 := any_has (offset n d) "/obj/machinery/power/smes/" "/obj/machinery/power/smes" (by decide +kernel)
  have h4 : ((center n).any fun b => !b.istype "/obj/machinery/power/terminal/" && b.istype "/obj/machinery/power/smes/") =
      true ↔ Has (center n) "/obj/machinery/power/smes" := by
    rw [← any_has (center n) "/obj/machinery/power/smes/" _ (by decide +kernel), List.any_eq_true, List.any_eq_true]
    refine exists_congr fun b => and_congr_right fun _ => ?_
    rw [Bool.and_eq_true]
    refine ⟨fun h => h.2, fun h => ⟨?_, h⟩⟩
    have : b.istype "/obj/machinery/power/terminal/" = false := off h (by decide +kernel) (by decide +kernel)
    rw [this]
    rfl
  have h5 : ((offset n d).any fun b => b.istype "/obj/structure/cable/" && decide (cableLayer b = cableLayer a)) = true ↔
      ∃ b ∈ offset n d, Is b.path "/obj/structure/cable" ∧ SameLayer a b := by
    rw [List.any_eq_true]
    refine exists_congr fun b => and_congr_right fun _ => ?_
    rw [Bool.and_eq_true, istype_is b _ "/obj/structure/cable" (by decide +kernel), decide_eq_true_eq, sameLayer_iff]
  unfold linked Linked
  simp only
  rw [← h1, ← h2, ← h3, ← h4, ← h5]
  generalize List.any (center n) (fun b => b.istype "/obj/machinery/power/terminal/") = x1
  generalize (offset n d).any (fun b => b.istype "/obj/machinery/power/terminal/") = x2
  generalize (offset n d).any (fun b => b.istype "/obj/machinery/power/smes/") = x3
  generalize ((center n).any fun b => !b.istype "/obj/machinery/power/terminal/" && b.istype "/obj/machinery/power/smes/") = x4
  generalize ((offset n d).any fun b => b.istype "/obj/structure/cable/" && decide (cableLayer b = cableLayer a)) = x5
  revert x1 x2 x3 x4 x5
  decide

/-- **C77.** Links are mutual when neither tile has both a power storage unit and a terminal. -/
theorem link_mutual (a b : Atom) (here there : List Atom) (ha : a ∈ here) (hb : b ∈ there)
    (ca : Is a.path "/obj/structure/cable") (cb : Is b.path "/obj/structure/cable") (hab : SameLayer a b)
    (h1 : ¬(Has here "/obj/machinery/power/smes" ∧ Has here "/obj/machinery/power/terminal"))
    (h2 : ¬(Has there "/obj/machinery/power/smes" ∧ Has there "/obj/machinery/power/terminal")) :
    Linked a here there ↔ Linked b there here := by
  have hba : SameLayer b a := by
    obtain ⟨t, e1, e2⟩ := hab
    exact ⟨t, e2, e1⟩
  have l1 : ∃ x ∈ there, Is x.path "/obj/structure/cable" ∧ SameLayer a x := ⟨b, hb, cb, hab⟩
  have l2 : ∃ x ∈ here, Is x.path "/obj/structure/cable" ∧ SameLayer b x := ⟨a, ha, ca, hba⟩
  unfold Linked
  simp only [l1, l2, true_and]
  clear l1 l2
  generalize Has here "/obj/machinery/power/smes" = s1 at *
  generalize Has here "/obj/machinery/power/terminal" = t1 at *
  generalize Has there "/obj/machinery/power/smes" = s2 at *
  generalize Has there "/obj/machinery/power/terminal" = t2 at *
  by_cases s1 <;> by_cases t1 <;> by_cases s2 <;> by_cases t2 <;> simp_all

/-- **C77, disagreement.** A cable on a tile with both is linked to the next tile with a power storage unit only, but
not the other way round. -/
theorem link_one_way (here there : List Atom) (a b : Atom) (hb : b ∈ there) (cb : Is b.path "/obj/structure/cable") (hab : SameLayer a b)
    (h1 : Has here "/obj/machinery/power/smes" ∧ Has here "/obj/machinery/power/terminal")
    (h2 : Has there "/obj/machinery/power/smes") (h3 : ¬Has there "/obj/machinery/power/terminal") :
    Linked a here there ∧ ¬Linked b there here := by
  refine ⟨⟨⟨b, hb, cb, hab⟩, fun h => h3 h.2, fun h => h.1 h1.1⟩, fun h => h.2.1 ⟨h2, h1.2⟩⟩

/-- **C77.** In terms of the level: what a pass sees of two neighbouring tiles. -/
theorem neighbours_see (c : Ctx) (x y x' y' : Nat) (hy : y < c.rows.length) (hy' : y' < c.rows.length) (d : Dir)
    (hx' : (x' : Int) = x + (step d).1) (hyd : (y' : Int) = y + (step d).2) (n m : List (List Atom))
    (hn : neighbors c x (c.rows.length - 1 - y) GRID = some n)
    (hm : neighbors c x' (c.rows.length - 1 - y') GRID = some m) :
    offset n d = center m ∧ offset m d.flip = center n := by
  obtain ⟨_, c1, o1⟩ := neighborhood_directions c x y hy n hn
  obtain ⟨_, c2, o2⟩ := neighborhood_directions c x' y' hy' m hm
  have e : (step d.flip).1 = -(step d).1 ∧ (step d.flip).2 = -(step d).2 := by cases d <;> decide
  rw [o1, o2, c1, c2, hx', hyd, e.1, e.2]
  constructor
  · rfl
  · congr 1 <;> omega

/-- the part of the state for a direction: its number if it is linked -/
def Part (a : Atom) (n : List (List Atom)) (d : Dir) (number t : String) : Prop :=
  (Linked a (center n) (offset n d) → t = "-" ++ number) ∧ (¬Linked a (center n) (offset n d) → t = "")

/-- things on the tile that give the cable a node -/
def Node (tile : List Atom) : Prop :=
  Has tile "/obj/structure/grille" ∨ Has tile "/obj/structure/cable_bridge" ∨ Has tile "/obj/machinery/power"

/-- linked in two directions or more -/
def Twice (a : Atom) (n : List (List Atom)) : Prop :=
  ∃ d e : Dir, d ≠ e ∧ d ∈ [Dir.north, .south, .east, .west] ∧ e ∈ [Dir.north, .south, .east, .west] ∧
    Linked a (center n) (offset n d) ∧ Linked a (center n) (offset n e)

theorem node_iff (tile : List Atom) : shouldHaveNode tile = true ↔ Node tile := by
  unfold shouldHaveNode Node Has
  rw [List.any_eq_true]
  have e (b : Atom) : (b.istype "/obj/structure/grille/" || b.istype "/obj/structure/cable_bridge/" ||
      b.istype "/obj/machinery/power/") = true ↔ Is b.path "/obj/structure/grille" ∨
      Is b.path "/obj/structure/cable_bridge" ∨ Is b.path "/obj/machinery/power" := by
    rw [Bool.or_eq_true, Bool.or_eq_true, istype_is b _ "/obj/structure/grille" (by decide +kernel),
      istype_is b _ "/obj/structure/cable_bridge" (by decide +kernel),
      istype_is b _ "/obj/machinery/power" (by decide +kernel), or_assoc]
  simp only [e]
  constructor
  · rintro ⟨b, hb, h | h | h⟩
    · exact .inl ⟨b, hb, h⟩
    · exact .inr (.inl ⟨b, hb, h⟩)
    · exact .inr (.inr ⟨b, hb, h⟩)
  · rintro (⟨b, hb, h⟩ | ⟨b, hb, h⟩ | ⟨b, hb, h⟩)
    · exact ⟨b, hb, .inl h⟩
    · exact ⟨b, hb, .inr (.inl h)⟩
    · exact ⟨b, hb, .inr (.inr h)⟩

/-- **C77.** The look of a cable: its layer, then north 1, south 2, east 4 and west 8 as far as linked, then a node. -/
theorem cable_looks (a : Atom) (n : List (List Atom)) :
    (¬Is a.path "/obj/structure/cable" ∨ Is a.path "/obj/structure/cable/multilayer" → smartCables a n = ([], true)) ∧
    (Is a.path "/obj/structure/cable" → ¬Is a.path "/obj/structure/cable/multilayer" → ∃ state layer,
      smartCables a n = ([{ a.sprite with iconState := state }], false) ∧ OfLayer a layer ∧
      ((∀ d ∈ [Dir.north, .south, .east, .west], ¬Linked a (center n) (offset n d)) →
        state = layer ++ "-noconnection".toList) ∧
      ((∃ d ∈ [Dir.north, .south, .east, .west], Linked a (center n) (offset n d)) → ∃ t1 t2 t4 t8 node,
        state = layer ++ (t1 ++ t2 ++ t4 ++ t8 ++ node : String).toList ∧ Part a n .north "1" t1 ∧
        Part a n .south "2" t2 ∧ Part a n .east "4" t4 ∧ Part a n .west "8" t8 ∧
        (Twice a n ∧ Node (center n) → node = "-node") ∧ (¬(Twice a n ∧ Node (center n)) → node = ""))) := by
  have i1 := istype_is a "/obj/structure/cable/" "/obj/structure/cable" (by decide +kernel)
  have i2 := istype_is a "/obj/structure/cable/multilayer" "/obj/structure/cable/multilayer" (by decide +kernel)
  constructor
  · intro h
    unfold smartCables
    rw [if_pos]
    rw [← i1, ← i2] at h
    rw [Bool.or_eq_true, Bool.not_eq_true', ← Bool.not_eq_true]
    exact h
  · intro h1 h2
    refine ⟨cableState a n, cableLayer a, ?_, ofLayer_eq a, ?_, ?_⟩
    · unfold smartCables
      rw [if_neg]
      rw [Bool.or_eq_true, Bool.not_eq_true', ← Bool.not_eq_true, i1, i2]
      exact fun e => e.elim (fun e => e h1) h2
    · intro h
      unfold cableState
      simp only
      rw [if_pos]
      rw [List.filter_eq_nil_iff]
      intro d hd e
      exact h d hd ((cable_linked a n d).1 e)
    · classical
      rintro ⟨d0, hd0, hl0⟩
      have hne : CARDINALS.filter (linked a n) ≠ [] := by
        intro e
        rw [List.filter_eq_nil_iff] at e
        exact e d0 hd0 ((cable_linked a n d0).2 hl0)
      have part (d : Dir) (num : String) (hnum : '-' :: (toString d.toInt).toList = ("-" ++ num).toList) :
          ∃ t : String, (if linked a n d then '-' :: (toString d.toInt).toList else []) = t.toList ∧ Part a n d num t := by
        by_cases h : linked a n d = true
        · refine ⟨"-" ++ num, by rw [if_pos h]; exact hnum, fun _ => rfl, fun e => absurd ((cable_linked a n d).1 h) e⟩
        · exact ⟨"", by rw [if_neg h]; rfl, fun e => absurd ((cable_linked a n d).2 e) h, fun _ => rfl⟩
      obtain ⟨t1, e1, p1⟩ := part .north "1" (by decide +kernel)
      obtain ⟨t2, e2, p2⟩ := part .south "2" (by decide +kernel)
      obtain ⟨t4, e4, p4⟩ := part .east "4" (by decide +kernel)
      obtain ⟨t8, e8, p8⟩ := part .west "8" (by decide +kernel)
      have htwice : 1 < (CARDINALS.filter (linked a n)).length ↔ Twice a n := by
        unfold Twice
        simp only [← cable_linked]
        constructor
        · intro h
          have : (CARDINALS.filter (linked a n)).Nodup := List.Nodup.filter _ (by decide)
          generalize hL : CARDINALS.filter (linked a n) = L at *
          match L, h with
          | x :: y :: L, _ =>
            have hx : x ∈ CARDINALS.filter (linked a n) := by rw [hL]; simp
            have hy : y ∈ CARDINALS.filter (linked a n) := by rw [hL]; simp
            rw [List.mem_filter] at hx hy
            refine ⟨x, y, ?_, hx.1, hy.1, hx.2, hy.2⟩
            intro e
            rw [e] at this
            simp at this
        · rintro ⟨d, e, hde, hd, he, ld, le⟩
          have hd' : d ∈ CARDINALS.filter (linked a n) := List.mem_filter.2 ⟨hd, ld⟩
          have he' : e ∈ CARDINALS.filter (linked a n) := List.mem_filter.2 ⟨he, le⟩
          generalize CARDINALS.filter (linked a n) = L at *
          match L, hd', he' with
          | [x], hd', he' =>
            rw [List.mem_singleton] at hd' he'
            exact absurd (hd'.trans he'.symm) hde
          | x :: y :: L, _, _ => simp
      refine ⟨t1, t2, t4, t8, if Twice a n ∧ Node (center n) then "-node" else "", ?_, p1, p2, p4, p8, ?_, ?_⟩
      · unfold cableState
        simp only
        rw [if_neg hne]
        have hparts : (CARDINALS.filter (linked a n)).flatMap (fun d => '-' :: (toString d.toInt).toList) =
            (t1 ++ t2 ++ t4 ++ t8 : String).toList := by
          have hf (L : List Dir) : (L.filter (linked a n)).flatMap (fun d => '-' :: (toString d.toInt).toList) =
              L.flatMap fun d => if linked a n d then '-' :: (toString d.toInt).toList else [] := by
            induction L with
            | nil => rfl
            | cons x L ih =>
              rw [List.filter_cons, List.flatMap_cons]
              split
              · rw [List.flatMap_cons, ih]
              · rw [ih]; rfl
          rw [hf]
          simp only [CARDINALS, List.flatMap_cons, List.flatMap_nil, e1, e2, e4, e8, String.toList_append, List.append_nil,
            List.append_assoc]
        have hnode : (if 1 < (CARDINALS.filter (linked a n)).length && shouldHaveNode (center n) then "-node".toList else []) =
            (if Twice a n ∧ Node (center n) then "-node" else "" : String).toList := by
          by_cases h : Twice a n ∧ Node (center n)
          · rw [if_pos h, if_pos]
            rw [Bool.and_eq_true, decide_eq_true_eq, htwice, node_iff]
            exact h
          · rw [if_neg h, if_neg]
            · rfl
            · rw [Bool.and_eq_true, decide_eq_true_eq, htwice, node_iff]
              exact h
        rw [hparts, hnode]
        simp only [String.toList_append, List.append_assoc]
      · intro h; rw [if_pos h]
      · intro h; rw [if_neg h]

/-! ## Cases meeting the hypotheses -/

namespace Ex

def cable : Atom where
  path := "/obj/structure/cable".toList
  given := none
  chain := [[("icon".toList, some (.resource "cable.dmi".toList))]]
  sprite := { icon := "cable.dmi".toList }

def smes : Atom where
  path := "/obj/machinery/power/smes".toList
  given := none
  chain := []
  sprite := {}

def terminal : Atom where
  path := "/obj/machinery/power/terminal".toList
  given := none
  chain := []
  sprite := {}

theorem cable_is : Is cable.path "/obj/structure/cable" := Under.refl _

/-- below a storage unit, with cables to the north and east and a terminal to the east: linked to the north only -/
example : (smartCables cable [[], [cable], [], [], [cable, smes], [cable, terminal], [], [], []]).1.map (·.iconState) =
    ["l2-1".toList] := by decide +kernel

/-- in the open, with a grille -/
example : (smartCables cable [[], [cable], [], [], [cable, { cable with path := "/obj/structure/grille".toList }], [cable],
    [], [], []]).1.map (·.iconState) = ["l2-1-4-node".toList] := by decide +kernel

theorem has_smes (l : List Atom) (h : smes ∈ l) : Has l "/obj/machinery/power/smes" := ⟨smes, h, Under.refl _⟩

/-- the hypotheses of `link_mutual` and of `link_one_way` are met -/
example : Linked cable [cable, smes, terminal] [cable, smes] ∧ ¬Linked cable [cable, smes] [cable, smes, terminal] := by
  refine link_one_way _ _ cable cable (by simp) cable_is ⟨_, ofLayer_eq _, ofLayer_eq _⟩
    ⟨has_smes _ (by simp), terminal, by simp, Under.refl _⟩ (has_smes _ (by simp)) ?_
  rw [← any_has _ "/obj/machinery/power/terminal/" _ (by decide +kernel)]
  decide +kernel

example : Linked cable [cable, smes] [cable, smes] ↔ Linked cable [cable, smes] [cable, smes] := by
  refine link_mutual _ _ _ _ (by simp) (by simp) cable_is cable_is ⟨_, ofLayer_eq _, ofLayer_eq _⟩ ?_ ?_ <;>
  · rintro ⟨_, h⟩
    rw [← any_has _ "/obj/machinery/power/terminal/" _ (by decide +kernel)] at h
    revert h
    decide +kernel

end Ex

end Verif.Minimap
