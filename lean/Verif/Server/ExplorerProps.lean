import Verif.Server.ExplorerModel

/-!
# C105: the object tree explorer
-/

namespace Verif.Explorer

open Verif.Objtree

/-! ## Specification -/

/-- What a client that opens every folder gets to see: it asks for a path, and then for the path of every child it is told about. -/
def openAll {L : Type} (ask : List Char → Option (Answer L)) : Nat → List Char → Option (Entry L)
  | 0, _ => none
  | fuel + 1, path =>
    match ask path with
    | some (.entry (.mk h cs)) => (cs.mapM fun c => openAll ask fuel (path ++ '/' :: c.head.name)).map (.mk h)
    | _ => none

mutual
/-- the types of an entry with the path each is found at -/
def Entry.all {L : Type} (path : List Char) : Entry L → List (List Char × Head L)
  | .mk h cs => (path, h) :: Entry.allOf path cs
def Entry.allOf {L : Type} (path : List Char) : List (Entry L) → List (List Char × Head L)
  | [] => []
  | c :: cs => Entry.all (path ++ '/' :: c.head.name) c ++ Entry.allOf path cs
end

variable {V P L : Type} {w : View V P L} {t : Tree V P}

theorem mapM_total {A B : Type} {f : A → Option B} {g : A → B} {l : List A} (h : ∀ x ∈ l, f x = some (g x)) :
    l.mapM f = some (l.map g) := by
  induction l with
  | nil => rfl
  | cons a l ih =>
    rw [List.mapM_cons, h a List.mem_cons_self, ih fun x hx => h x (List.mem_cons_of_mem _ hx)]
    rfl

theorem sort_map {A B : Type} {f : A → B} {name : B → Ident} (l : List A) :
    (l.map f).mergeSort (byName name) = (l.mergeSort (byName fun a => name (f a))).map f :=
  (List.map_mergeSort (r := byName fun a => name (f a)) (s := byName name) (f := f) (fun _ _ _ _ => rfl)).symm

theorem kids_eq {i : Nat} {n : Node V P} (hi : t.graph[i]? = some n) : n.children.map Prod.snd = t.kids i := by
  unfold Tree.kids; rw [hi]

theorem kid_path (h : t.shape) {i c : Nat} {n m : Node V P} (hi : t.graph[i]? = some n) (hc : c ∈ t.kids i)
    (hm : t.graph[c]? = some m) : i < c ∧ m.path = n.path ++ '/' :: m.name := by
  have hp := (mem_kids h i c).1 hc
  have hlt := parentPath_lt h hp
  obtain ⟨p, q, h1, _, h3, h4, _⟩ := h.up hm (by omega)
  rw [hp] at h1; cases h1
  rw [hi] at h3; cases h3
  exact ⟨hlt, h4⟩

theorem query_of (h : t.shape) {i : Nat} {n : Node V P} (hi : t.graph[i]? = some n) {fuel : Nat} :
    openAll (query w t) (fuel + 1) n.path =
      ((n.children.map Prod.snd).mapM (stub w t)).bind fun cs =>
        ((sortChildren cs).mapM fun c => openAll (query w t) fuel (n.path ++ '/' :: c.head.name)).map (.mk (fullHead w n)) := by
  have hf : t.find n.path = some i := (find_shape h n.path i).2 ⟨n, hi, rfl⟩
  have hq : query w t n.path = (placeholders w t i).map .entry := by unfold query; rw [hf]
  have hpl : placeholders w t i =
      ((n.children.map Prod.snd).mapM (stub w t)).map fun cs => .mk (fullHead w n) (sortChildren cs) := by
    unfold placeholders; rw [hi]
  rw [hpl] at hq
  simp only [openAll, hq]
  cases (n.children.map Prod.snd).mapM (stub w t) <;> rfl

theorem allOf_eq {path : List Char} (cs : List (Entry L)) :
    Entry.allOf path cs = cs.flatMap fun c => c.all (path ++ '/' :: c.head.name) := by
  induction cs with
  | nil => simp [Entry.allOf]
  | cons c cs ih => simp [Entry.allOf, ih]

/-- eager, lazy, and what is in it -/
theorem explore (h : t.shape) (w : View V P L) (k : Nat) : ∀ (i : Nat) (n : Node V P), t.graph[i]? = some n →
    t.graph.length ≤ i + k → ∃ (e : Entry L) (vs : List Nat), e.head = fullHead w n ∧
      (∀ fuel, k ≤ fuel → recurse w t fuel i = some e ∧ openAll (query w t) fuel n.path = some e ∧
        visit t.kids fuel i = some vs) ∧
      (e.all n.path).Perm (vs.filterMap fun j => (t.graph[j]?).map fun m => (m.path, fullHead w m)) := by
  induction k with
  | zero =>
    intro i n hi hk
    have := (List.getElem?_eq_some_iff.1 hi).1
    omega
  | succ k ih =>
    intro i n hi hk
    have key : ∀ c ∈ t.kids i, ∃ (m : Node V P) (e : Entry L) (vs : List Nat), t.graph[c]? = some m ∧
        m.path = n.path ++ '/' :: m.name ∧ e.head = fullHead w m ∧
        (∀ fuel, k ≤ fuel → recurse w t fuel c = some e ∧ openAll (query w t) fuel m.path = some e ∧
          visit t.kids fuel c = some vs) ∧
        (e.all m.path).Perm (vs.filterMap fun j => (t.graph[j]?).map fun m => (m.path, fullHead w m)) := by
      intro c hc
      obtain ⟨m, hm⟩ := kid_valid h hc
      obtain ⟨hlt, hp⟩ := kid_path h hi hc hm
      obtain ⟨e, vs, h1, h2, h3⟩ := ih c m hm (by omega)
      exact ⟨m, e, vs, hm, hp, h1, h2, h3⟩
    haveI : Inhabited (Node V P) := ⟨n⟩
    haveI : Inhabited (Entry L) := ⟨.mk (fullHead w n) []⟩
    choose! M E W hM hp hh hE hW using key
    refine ⟨.mk (fullHead w n) (sortChildren ((t.kids i).map E)), i :: ((t.kids i).map W).flatten, rfl, ?_, ?_⟩
    · intro fuel hf
      obtain ⟨fuel, rfl⟩ : ∃ f, fuel = f + 1 := ⟨fuel - 1, by omega⟩
      have hf' : k ≤ fuel := by omega
      refine ⟨?_, ?_, ?_⟩
      · unfold recurse
        rw [hi]
        simp only
        rw [kids_eq hi, mapM_total fun c hc => (hE c hc fuel hf').1]
        rfl
      · rw [query_of h hi, kids_eq hi]
        have hs : (t.kids i).mapM (stub w t) = some ((t.kids i).map fun c => .mk (stubHead w (M c)) []) :=
          mapM_total fun c hc => by unfold stub; rw [hM c hc]
        rw [hs]
        simp only [Option.bind_some]
        unfold sortChildren
        rw [sort_map, sort_map]
        have hsort : (t.kids i).mergeSort (byName fun a => (E a).head.name) =
            (t.kids i).mergeSort (byName fun c => (Entry.mk (stubHead w (M c)) [] : Entry L).head.name) := by
          have := List.map_mergeSort (l := t.kids i) (f := id) (r := byName fun a => (E a).head.name)
            (s := byName fun c => (Entry.mk (stubHead w (M c)) [] : Entry L).head.name) (by
              intro a ha b hb
              simp only [byName, id]
              rw [hh a ha, hh b hb]
              rfl)
          simpa using this
        rw [hsort, List.mapM_map, mapM_total (g := E)]
        · rfl
        · intro c hc
          have hc' := (List.mergeSort_perm _ _).mem_iff.1 hc
          have := (hE c hc' fuel hf').2.1
          rw [hp c hc'] at this
          exact this
      · unfold visit
        rw [mapM_total fun c hc => (hE c hc fuel hf').2.2]
        rfl
    · simp only [Entry.all, List.filterMap_cons, hi, Option.map_some]
      refine List.Perm.cons _ ?_
      rw [allOf_eq]
      refine (List.Perm.flatMap_right _ (List.mergeSort_perm _ _)).trans ?_
      rw [List.flatMap_map, List.filterMap_flatten, List.map_map, ← List.flatMap_def]
      refine List.Perm.flatMap_left _ fun c hc => ?_
      have := hW c hc
      rw [hp c hc] at this
      rw [hh c hc]
      exact this

theorem range_filterMap {A B : Type} (f : A → B) (l : List A) :
    ((List.range l.length).filterMap fun j => (l[j]?).map f) = l.map f := by
  induction l with
  | nil => rfl
  | cons a l ih =>
    rw [List.length_cons, List.range_succ_eq_map, List.filterMap_cons, List.filterMap_map]
    simp only [List.getElem?_cons_zero, Option.map_some, List.map_cons]
    rw [← ih]
    rfl

variable {b : Builder V P} {eval : List Char → TypeVar V → ParentVal}

/-- **C105** A client that opens every folder gets to see exactly what a client that is sent the whole tree gets to see. -/
theorem lazy_is_eager (h : Finished b eval t) (w : View V P L) :
    ∃ e : Entry L, ∀ fuel, t.graph.length ≤ fuel →
      openAll (query w t) fuel [] = some e ∧ update w t ⟨true, false⟩ fuel = some (some (.tree e)) := by
  obtain ⟨n, hn, hp, _⟩ := h.shape.top
  obtain ⟨e, vs, _, h2, _⟩ := explore h.shape w t.graph.length 0 n hn (by omega)
  refine ⟨e, fun fuel hf => ?_⟩
  obtain ⟨r, o, _⟩ := h2 fuel hf
  rw [hp] at o
  refine ⟨o, ?_⟩
  unfold update
  rw [r]
  rfl

/-- **C105** In it is every type of the environment, once, at its path. -/
theorem tree_complete (h : Finished b eval t) (w : View V P L) {fuel : Nat} {e : Entry L}
    (he : openAll (query w t) fuel [] = some e) (hf : t.graph.length ≤ fuel) :
    (e.all []).Perm (t.graph.map fun n => (n.path, fullHead w n)) := by
  obtain ⟨n, hn, hp, _⟩ := h.shape.top
  obtain ⟨e', vs, _, h2, h3⟩ := explore h.shape w t.graph.length 0 n hn (by omega)
  obtain ⟨vs', h4, h5, h6, h7⟩ := recurse_shape h.shape hn
  rw [hp] at h3 h7
  have e1 := (h2 fuel hf).2.1
  rw [hp] at e1
  rw [he] at e1; cases e1
  have e2 := (h2 (t.graph.length + 1) (by omega)).2.2
  have e3 := h4 (t.graph.length + 1) (Nat.le_refl _)
  rw [recurse_eq_visit h.shape _ _ ⟨n, hn⟩, e2] at e3
  cases e3
  refine h3.trans ?_
  have hr : vs.Perm (List.range t.graph.length) := by
    refine (List.perm_ext_iff_of_nodup h5 List.nodup_range).2 fun j => ?_
    rw [h7, List.mem_range]
    constructor
    · rintro ⟨m, hm, _⟩
      exact (List.getElem?_eq_some_iff.1 hm).1
    · intro hj
      obtain ⟨ps, e, _⟩ := h.shape.pieces (List.getElem?_eq_getElem hj)
      refine ⟨_, List.getElem?_eq_getElem hj, ⟨t.graph[j].path, by simp, ?_⟩⟩
      rw [e]
      cases ps with
      | nil => exact .inl rfl
      | cons x xs => exact .inr rfl
  refine (List.Perm.filterMap _ hr).trans ?_
  rw [range_filterMap]

end Verif.Explorer
