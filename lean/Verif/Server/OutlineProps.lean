import Verif.Server.Outline

/-!
# C90: the specification of the outline, and the proof
-/

namespace Verif.Server

/-! ### The specification -/

/-- Blocks of types, and bodies of procs, have symbols within them. -/
def Item.Holds (x : Item) : Prop :=
  (∃ p, x.ann = .treeBlock p ∧ p ≠ []) ∨ ∃ p, x.ann = .procBody p ∧ p ≠ []

instance (x : Item) : Decidable x.Holds := by
  unfold Item.Holds
  cases h : x.ann with
  | treeBlock p =>
    exact decidable_of_iff (p ≠ []) ⟨fun hp => .inl ⟨p, rfl, hp⟩, fun hh => by
      rcases hh with ⟨_, h, hp⟩ | ⟨_, h, _⟩ <;> cases h; exact hp⟩
  | procBody p =>
    exact decidable_of_iff (p ≠ []) ⟨fun hp => .inr ⟨p, rfl, hp⟩, fun hh => by
      rcases hh with ⟨_, h, _⟩ | ⟨_, h, hp⟩ <;> cases h; exact hp⟩
  | «variable» p => exact isFalse (by rintro (⟨_, h, _⟩ | ⟨_, h, _⟩) <;> cases h)
  | localVar p => exact isFalse (by rintro (⟨_, h, _⟩ | ⟨_, h, _⟩) <;> cases h)
  | macroDef p => exact isFalse (by rintro (⟨_, h, _⟩ | ⟨_, h, _⟩) <;> cases h)
  | other => exact isFalse (by rintro (⟨_, h, _⟩ | ⟨_, h, _⟩) <;> cases h)

/-- The parent of a symbol: of the blocks and bodies that come before it, the last one that is not over where
it starts. -/
def parentOf (before : List Item) (x : Item) : Option Item :=
  (before.filter (fun c => c.Holds ∧ x.start.Lt c.stop)).getLast?

/-- The words of the language that can be part of a path. -/
def pathWords : List String :=
  ["var", "proc", "verb", "global", "static", "const", "tmp", "final", "SpacemanDMM_final",
    "SpacemanDMM_private", "SpacemanDMM_protected"]

/-- The detail of a symbol with this path: the last name before its own that is no keyword and is not part of
the path of the block it is in. -/
def detailOf (parent : Option Item) (path : List String) : Option String :=
  let skip := match parent.map Item.ann with
    | some (.treeBlock p) => p.length
    | _ => 0
  ((path.dropLast.drop skip).filter (fun x => x ∉ pathWords)).getLast?

/-- The symbol of an item, if it has one. -/
def headerOf (parent : Option Item) (x : Item) : Option Header :=
  let range := ((⟨x.start.line - 1, x.start.column - 1⟩ : Pos), (⟨x.stop.line - 1, x.stop.column - 1⟩ : Pos))
  let here := ((⟨x.start.line - 1, x.start.column - 1⟩ : Pos), (⟨x.start.line - 1, x.start.column - 1⟩ : Pos))
  match x.ann with
  | .treeBlock p => p.getLast?.map fun name => ⟨name, detailOf parent p, .cls, range, here, true⟩
  | .variable p => p.getLast?.map fun name => ⟨name, detailOf parent p, .field, range, here, false⟩
  | .procBody p => p.getLast?.map fun name => ⟨name, detailOf parent p,
      if p = [name] ∨ p = ["proc", name] then .function
      else if name ∈ ["New", "init", "Initialize"] then .constructor else .method, range, here, true⟩
  | .localVar name => some ⟨name, none, .variable, range, here, false⟩
  | .macroDef name => some ⟨name, none, .constant, range, here, false⟩
  | .other => none

/-- The symbols there should be, in order, each with its parent and its item. -/
def rowsOf (before : List Item) : List Item → List (Option Item × Item × Header)
  | [] => []
  | x :: xs => ((headerOf (parentOf before x) x).toList.map fun h => (parentOf before x, x, h)) ++
      rowsOf (before ++ [x]) xs

mutual
/-- A symbol and those within it, each with its parent and its item, in the order in which a client lists
them. -/
def Sym.rows (parent : Option Item) : Sym → List (Option Item × Item × Header)
  | .mk x h children => (parent, x, h) :: Sym.rowsAll (some x) children
/-- The same for a list of symbols. -/
def Sym.rowsAll (parent : Option Item) : List Sym → List (Option Item × Item × Header)
  | [] => []
  | s :: ss => Sym.rows parent s ++ Sym.rowsAll parent ss
end

/-! ### The proof -/

theorem Place.lt_of_le {a b c : Place} (h1 : ¬ b.Lt a) (h2 : b.Lt c) : a.Lt c := by
  unfold Place.Lt at *
  omega

theorem getLast?_filter {α : Type} (f : α → Bool) (l : List α) :
    l.reverse.find? f = (l.filter f).getLast? := by
  rw [← List.head?_reverse, ← List.filter_reverse, List.head?_filter]

theorem isKeyword_eq (x : String) : (!isKeyword x) = decide (x ∉ pathWords) := by
  have : isKeyword x = decide (x ∈ pathWords) := by
    rw [Bool.eq_iff_iff]
    simp only [isKeyword, pathWords, Bool.or_eq_true, decide_eq_true_eq, List.mem_cons,
      List.not_mem_nil, or_false]
    constructor <;> intro h <;> grind
  rw [this]
  simp

theorem nameAndDetail_eq (path : List String) (skip : Nat) : nameAndDetail path skip =
    path.getLast?.map (fun name =>
      (name, ((path.dropLast.drop skip).filter (fun x => x ∉ pathWords)).getLast?)) := by
  unfold nameAndDetail
  simp only [isKeyword_eq]
  cases path.getLast? with
  | none => rfl
  | some name =>
    simp only [Option.map_some]
    by_cases h : skip ≤ path.dropLast.length
    · rw [if_pos h, getLast?_filter]
    · rw [if_neg h, List.drop_eq_nil_of_le (by omega)]
      rfl

/-- What `skip_front` stands for. -/
def skipOf (parent : Option Item) : Nat :=
  match parent.map Item.ann with
  | some (.treeBlock p) => p.length
  | _ => 0

theorem nameAndDetail_detail (path : List String) (parent : Option Item) :
    nameAndDetail path (skipOf parent) =
      path.getLast?.map (fun name => (name, detailOf parent path)) := by
  rw [nameAndDetail_eq]
  rfl

theorem procKind_eq {p : List String} {name : String} (h : p.getLast? = some name) :
    procKind p name = if p = [name] ∨ p = ["proc", name] then .function
      else if name ∈ ["New", "init", "Initialize"] then .constructor else .method := by
  have h1 : (p.length = 1 ∨ p.length = 2 ∧ p[0]? = some "proc") ↔ (p = [name] ∨ p = ["proc", name]) := by
    match p, h with
    | [a], h => simp at h; simp [h]
    | [a, b], h => simp at h; simp [h]
    | a :: b :: c :: p, h => simp
  have h2 : isConstructorName name = true ↔ name ∈ ["New", "init", "Initialize"] := by
    simp [isConstructorName, or_assoc]
  unfold procKind
  simp only [h1, h2]

theorem parentOf_snoc_holds {before : List Item} {c x : Item} (hc : c.Holds) (hx : x.start.Lt c.stop) :
    parentOf (before ++ [c]) x = some c := by
  unfold parentOf
  rw [List.filter_append, List.filter_cons_of_pos (by simp [hc, hx]), List.filter_nil,
    List.getLast?_append]
  rfl

theorem parentOf_append {before cs : List Item} {x : Item}
    (h : ∀ c ∈ cs, c.Holds → ¬ x.start.Lt c.stop) : parentOf (before ++ cs) x = parentOf before x := by
  unfold parentOf
  rw [List.filter_append]
  have : cs.filter (fun c => decide (c.Holds ∧ x.start.Lt c.stop)) = [] := by
    rw [List.filter_eq_nil_iff]
    intro c hc
    simp only [decide_eq_true_eq, not_and]
    exact h c hc
  rw [this, List.append_nil]

theorem rowsOf_append (before a b : List Item) :
    rowsOf before (a ++ b) = rowsOf before a ++ rowsOf (before ++ a) b := by
  induction a generalizing before with
  | nil => simp [rowsOf]
  | cons x a ih => simp [rowsOf, ih]

/-- Sorted by where they start. -/
def ByStart (l : List Item) : Prop := l.Pairwise (fun a b => ¬ b.start.Lt a.start)

theorem findSymbols_rows (n : Nat) : ∀ (items before : List Item) (parent : Option Item) (e : Place),
    items.length ≤ n → ByStart items → (∀ x ∈ items, x.start.Lt e → parentOf before x = parent) →
    (∀ x ∈ items, ∀ p, x.ann = .variable p → p ≠ []) →
    ∃ syms used rest, findSymbols n items e (skipOf parent) = some (syms, rest) ∧ items = used ++ rest ∧
      (∀ y ∈ rest, ¬ y.start.Lt e) ∧ (∀ c ∈ used, c.Holds → ∀ y ∈ rest, ¬ y.start.Lt c.stop) ∧
      Sym.rowsAll parent syms = rowsOf before used := by
  induction n with
  | zero =>
    intro items before parent e hl hs hp hv
    have : items = [] := List.length_eq_zero_iff.1 (Nat.le_zero.1 hl)
    subst this
    exact ⟨[], [], [], rfl, rfl, by simp, by simp, rfl⟩
  | succ n ih =>
    intro items before parent e hl hs hp hv
    match items, hl, hs, hp, hv with
    | [], _, _, _, _ => exact ⟨[], [], [], rfl, rfl, by simp, by simp, rfl⟩
    | x :: xs, hl, hs, hp, hv =>
      have hl' : xs.length ≤ n := Nat.le_of_succ_le_succ hl
      rw [ByStart, List.pairwise_cons] at hs
      have hv' : ∀ y ∈ xs, ∀ p, y.ann = .variable p → p ≠ [] :=
        fun y hy => hv y (List.mem_cons_of_mem _ hy)
      by_cases hx : ¬ x.start.Lt e
      · refine ⟨[], [], x :: xs, ?_, rfl, ?_, by simp, rfl⟩
        · simp only [findSymbols, hx, not_false_eq_true, if_true]
        · intro y hy
          rcases List.mem_cons.1 hy with rfl | hy
          · exact hx
          · exact fun h => hx (Place.lt_of_le (hs.1 y hy) h)
      have hx := Classical.not_not.1 hx
      have hpx := hp x List.mem_cons_self hx
      -- an item without symbols in it
      have leaf : ∀ (hn : ¬ x.Holds) (pref : List Sym),
          Sym.rowsAll parent pref = (headerOf parent x).toList.map (fun h => (parent, x, h)) →
          (findSymbols (n + 1) (x :: xs) e (skipOf parent) =
            (findSymbols n xs e (skipOf parent)).map (fun r => (pref ++ r.1, r.2))) →
          (∀ a b, Sym.rowsAll parent (a ++ b) = Sym.rowsAll parent a ++ Sym.rowsAll parent b) →
          ∃ syms used rest, findSymbols (n + 1) (x :: xs) e (skipOf parent) = some (syms, rest) ∧
            x :: xs = used ++ rest ∧
            (∀ y ∈ rest, ¬ y.start.Lt e) ∧ (∀ c ∈ used, c.Holds → ∀ y ∈ rest, ¬ y.start.Lt c.stop) ∧
            Sym.rowsAll parent syms = rowsOf before used := by
        intro hn pref hr he happ
        obtain ⟨syms, used, rest, h1, h2, h3, h4, h5⟩ := ih xs (before ++ [x]) parent e hl' hs.2
          (fun y hy hye => by
            rw [parentOf_append]
            · exact hp y (List.mem_cons_of_mem _ hy) hye
            · intro c hc hh
              rw [List.mem_singleton.1 hc] at hh
              exact absurd hh hn) hv'
        refine ⟨pref ++ syms, x :: used, rest, ?_, by rw [h2]; rfl, h3, ?_, ?_⟩
        · rw [he, h1]; rfl
        · intro c hc hh
          rcases List.mem_cons.1 hc with rfl | hc
          · exact absurd hh hn
          · exact h4 c hc hh
        · rw [happ, hr, h5, rowsOf, hpx]
      have happ : ∀ a b, Sym.rowsAll parent (a ++ b) = Sym.rowsAll parent a ++ Sym.rowsAll parent b := by
        intro a b
        induction a with
        | nil => rfl
        | cons s a ih => simp [Sym.rowsAll, ih]
      -- an item with symbols in it
      have node : ∀ (hh : x.Holds) (skip' : Nat), skip' = skipOf (some x) → ∀ hd : Header,
          headerOf parent x = some hd →
          (findSymbols (n + 1) (x :: xs) e (skipOf parent) =
            (findSymbols n xs x.stop skip').bind (fun r =>
              (findSymbols n r.2 e (skipOf parent)).map (fun r' => (.mk x hd r.1 :: r'.1, r'.2)))) →
          ∃ syms used rest, findSymbols (n + 1) (x :: xs) e (skipOf parent) = some (syms, rest) ∧
            x :: xs = used ++ rest ∧
            (∀ y ∈ rest, ¬ y.start.Lt e) ∧ (∀ c ∈ used, c.Holds → ∀ y ∈ rest, ¬ y.start.Lt c.stop) ∧
            Sym.rowsAll parent syms = rowsOf before used := by
        rintro hh _ rfl hd hhd he
        obtain ⟨kids, used1, rest1, a1, rfl, a3, a4, a5⟩ := ih xs (before ++ [x]) (some x) x.stop hl' hs.2
          (fun y hy hye => parentOf_snoc_holds hh hye) hv'
        have hlen : rest1.length ≤ n := by
          rw [List.length_append] at hl'
          omega
        rw [List.pairwise_append] at hs
        obtain ⟨syms, used2, rest2, b1, rfl, b3, b4, b5⟩ := ih rest1 (before ++ x :: used1) parent e hlen
          hs.2.2.1
          (fun y hy hye => by
            rw [parentOf_append]
            · exact hp y (List.mem_cons_of_mem _ (List.mem_append_right _ hy)) hye
            · intro c hc hch
              rcases List.mem_cons.1 hc with rfl | hc
              · exact a3 y hy
              · exact a4 c hc hch y hy)
          (fun y hy => hv' y (List.mem_append_right _ hy))
        refine ⟨.mk x hd kids :: syms, x :: (used1 ++ used2), rest2, ?_, by simp, b3, ?_, ?_⟩
        · rw [he, a1, Option.bind_some, b1]
          rfl
        · intro c hc hch y hy
          rcases List.mem_cons.1 hc with rfl | hc
          · exact a3 y (List.mem_append_right _ hy)
          · rcases List.mem_append.1 hc with hc | hc
            · exact a4 c hc hch y (List.mem_append_right _ hy)
            · exact b4 c hc hch y hy
        · rw [rowsOf, hpx, hhd, rowsOf_append, ← a5, List.append_assoc, List.singleton_append, ← b5]
          simp [Sym.rowsAll, Sym.rows]
      cases ha : x.ann with
      | other =>
        have hn : ¬ x.Holds := by rintro (⟨_, h, _⟩ | ⟨_, h, _⟩) <;> rw [ha] at h <;> cases h
        refine leaf hn [] (by simp [Sym.rowsAll, headerOf, ha]) ?_ happ
        simp only [findSymbols, hx, not_true_eq_false, if_false, ha, List.nil_append]
        simp
      | localVar name =>
        have hn : ¬ x.Holds := by rintro (⟨_, h, _⟩ | ⟨_, h, _⟩) <;> rw [ha] at h <;> cases h
        refine leaf hn [.mk x ⟨name, none, .variable, spanToRange x.start x.stop, toRange x.start, false⟩ []]
          (by simp [Sym.rowsAll, Sym.rows, headerOf, ha, spanToRange, toRange, toPosition]) ?_ happ
        simp only [findSymbols, hx, not_true_eq_false, if_false, ha]
        rfl
      | macroDef name =>
        have hn : ¬ x.Holds := by rintro (⟨_, h, _⟩ | ⟨_, h, _⟩) <;> rw [ha] at h <;> cases h
        refine leaf hn [.mk x ⟨name, none, .constant, spanToRange x.start x.stop, toRange x.start, false⟩ []]
          (by simp [Sym.rowsAll, Sym.rows, headerOf, ha, spanToRange, toRange, toPosition]) ?_ happ
        simp only [findSymbols, hx, not_true_eq_false, if_false, ha]
        rfl
      | «variable» path =>
        have hn : ¬ x.Holds := by rintro (⟨_, h, _⟩ | ⟨_, h, _⟩) <;> rw [ha] at h <;> cases h
        have hpath := hv x List.mem_cons_self path ha
        obtain ⟨name, hname⟩ : ∃ name, path.getLast? = some name := by
          cases h : path.getLast? with
          | none => exact absurd (List.getLast?_eq_none_iff.1 h) hpath
          | some name => exact ⟨name, rfl⟩
        refine leaf hn [.mk x ⟨name, detailOf parent path, .field, spanToRange x.start x.stop,
          toRange x.start, false⟩ []]
          (by simp [Sym.rowsAll, Sym.rows, headerOf, ha, hname, spanToRange, toRange, toPosition]) ?_ happ
        simp only [findSymbols, hx, not_true_eq_false, if_false, ha, nameAndDetail_detail, hname,
          Option.map_some, Option.bind_some]
        rfl
      | treeBlock path =>
        by_cases hpath : path = []
        · have hn : ¬ x.Holds := by
            rintro (⟨_, h, hne⟩ | ⟨_, h, _⟩) <;> rw [ha] at h <;> cases h
            exact hne hpath
          refine leaf hn [] (by simp [Sym.rowsAll, headerOf, ha, hpath]) ?_ happ
          simp only [findSymbols, hx, not_true_eq_false, if_false, ha, hpath, if_true, List.nil_append]
          simp
        · obtain ⟨name, hname⟩ : ∃ name, path.getLast? = some name := by
            cases h : path.getLast? with
            | none => exact absurd (List.getLast?_eq_none_iff.1 h) hpath
            | some name => exact ⟨name, rfl⟩
          refine node (.inl ⟨path, ha, hpath⟩) path.length (by simp [skipOf, ha]) ⟨name,
            detailOf parent path, .cls, spanToRange x.start x.stop, toRange x.start, true⟩
            (by simp [headerOf, ha, hname, spanToRange, toRange, toPosition]) ?_
          simp only [findSymbols, hx, not_true_eq_false, if_false, ha, hpath, nameAndDetail_detail, hname,
            Option.map_some, Option.bind_some]
      | procBody path =>
        by_cases hpath : path = []
        · have hn : ¬ x.Holds := by
            rintro (⟨_, h, _⟩ | ⟨_, h, hne⟩) <;> rw [ha] at h <;> cases h
            exact hne hpath
          refine leaf hn [] (by simp [Sym.rowsAll, headerOf, ha, hpath]) ?_ happ
          simp only [findSymbols, hx, not_true_eq_false, if_false, ha, hpath, if_true, List.nil_append]
          simp
        · obtain ⟨name, hname⟩ : ∃ name, path.getLast? = some name := by
            cases h : path.getLast? with
            | none => exact absurd (List.getLast?_eq_none_iff.1 h) hpath
            | some name => exact ⟨name, rfl⟩
          refine node (.inr ⟨path, ha, hpath⟩) 0 (by simp [skipOf, ha]) ⟨name,
            detailOf parent path, procKind path name, spanToRange x.start x.stop, toRange x.start, true⟩
            (by simp [headerOf, ha, hname, spanToRange, toRange, toPosition, procKind_eq hname]) ?_
          simp only [findSymbols, hx, not_true_eq_false, if_false, ha, hpath, nameAndDetail_detail, hname,
            Option.map_some, Option.bind_some]

end Verif.Server
