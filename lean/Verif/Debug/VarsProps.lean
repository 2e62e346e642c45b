import Verif.Debug.FramesProps

/-!
# C93: names of variables, lists, fields, disassembly
-/

namespace Verif.Debug

theorem of_name (n : Text) (v : Val) : (Var.of n v).name = n := rfl

/-- **C93**: the local variables of a frame have different names, if those of the program are identifiers
(and the editor shows them all). -/
theorem localVars_distinct {f : Frame} (h : ∀ n ∈ f.localNames, Ident n) :
    ((localVars f).map (·.name)).Nodup := by
  rw [localVars_rows, List.map_cons, List.map_map, List.nodup_cons]
  constructor
  · intro hm
    obtain ⟨vi, -, he⟩ := List.mem_map.1 hm
    simp only [Function.comp, of_name] at he
    cases hn : f.localNames[vi.2]? with
    | none =>
      rw [hn] at he
      exact not_mem_showNat (n := vi.2) (c := '.') (by decide) (by simp only at he; rw [he]; simp)
    | some n =>
      rw [hn] at he
      simp only at he
      have hi := h n (List.mem_of_getElem? hn)
      have := suffixed_head (k := before f.localNames vi.2 n) hi.nonempty
      rw [he, List.head?_cons] at this
      cases n with
      | nil => exact hi.nonempty rfl
      | cons c cs =>
        rw [List.head?_cons, Option.some.injEq] at this
        exact hi.noDot (by rw [this]; exact List.mem_cons_self)
  · refine labels_nodup showNat f.localNames f.locals (fun i => match f.localNames[i]? with
      | some n => suffixed n (before f.localNames i n)
      | none => showNat i) (fun i => rfl) (fun n hn => (h n hn).noHash) (fun i j _ _ => showNat_inj) ?_
    intro n hn k i he
    have hi := h n hn
    have := suffixed_head (k := k) hi.nonempty
    rw [he] at this
    cases hs : showNat i with
    | nil => exact showNat_ne i hs
    | cons c cs =>
      rw [hs, List.head?_cons] at this
      have h1 := hi.start c this.symm
      rw [showNat_digit (n := i) (c := c) (by rw [hs]; simp)] at h1
      cases h1

theorem argLabel_inj {i j : Nat} (h : argLabel i = argLabel j) : i = j := by
  unfold argLabel at h
  simp only [List.cons_append, List.cons.injEq, true_and, List.append_cancel_right_eq] at h
  have := showNat_inj h
  omega

/-- **C93**: so have the arguments, also if one is called `src` or `usr`. -/
theorem argVars_distinct {f : Frame} (h : ∀ n ∈ f.argNames, Ident n) :
    ((argVars f).map (·.name)).Nodup := by
  have key := labels_nodup (fun i => argLabel (i - 2)) (nSrc :: nUsr :: f.argNames)
    (f.src :: f.usr :: f.args) (fun i => match (nSrc :: nUsr :: f.argNames)[i]? with
      | some n => suffixed n (before (nSrc :: nUsr :: f.argNames) i n)
      | none => argLabel (i - 2))
    (fun i => rfl)
  have hid : ∀ n ∈ nSrc :: nUsr :: f.argNames, '#' ∉ n ∧ '[' ∉ n := by
    intro n hn
    rcases List.mem_cons.1 hn with rfl | hn
    · decide
    · rcases List.mem_cons.1 hn with rfl | hn
      · decide
      · exact ⟨(h n hn).noHash, (h n hn).noBracket⟩
  have := key (fun n hn => (hid n hn).1)
    (fun i j hi hj he => by
      have := argLabel_inj he
      simp only [List.length_cons] at hi hj
      omega)
    (fun n hn k i he => by
      have h1 : '[' ∈ suffixed n k := by rw [he]; simp [argLabel]
      unfold suffixed at h1
      split at h1
      · exact (hid n hn).2 h1
      · simp only [List.mem_append, List.mem_cons] at h1
        rcases h1 with h1 | h1 | h1 | h1
        · exact (hid n hn).2 h1
        · exact absurd h1 (by decide)
        · exact absurd h1 (by decide)
        · exact not_mem_showNat (by decide) h1)
  rw [argVars_rows]
  refine cast (congrArg List.Nodup ?_) this
  rw [List.zipIdx_cons, List.zipIdx_cons, List.map_cons, List.map_cons, List.map_cons, List.map_cons,
    List.map_map]
  have hu : before (nSrc :: nUsr :: f.argNames) 1 nUsr = 0 := by
    simp only [before, List.take_succ_cons, List.take_zero]; decide
  have hs : before (nSrc :: nUsr :: f.argNames) 0 nSrc = 0 := rfl
  simp only [Nat.zero_add, List.getElem?_cons_zero, List.getElem?_cons_succ, of_name, hu, hs]
  congr 2
  have hz : f.args.zipIdx (1 + 1) = f.args.zipIdx.map fun vi => (vi.1, vi.2 + 2) := by
    apply List.ext_getElem?
    intro i
    simp only [List.getElem?_map, List.getElem?_zipIdx, Option.map_map]
    cases f.args[i]? with
    | none => rfl
    | some v => simp; omega
  rw [hz, List.map_map]
  refine List.map_congr_left fun x _ => ?_
  simp only [Function.comp, List.getElem?_cons_succ, of_name, Nat.add_sub_cancel]
  cases f.argNames[x.2]? <;> rfl

/-- **C93** (auxtools): so have the variables that auxtools tells, if there is no `#` in their names. -/
theorem auxLabels_rows (vars : List (Text × Text × Int)) :
    auxLabels (fun _ => none) vars = vars.zipIdx.map fun vi =>
      ⟨suffixed vi.1.1 (before (vars.map (·.1)) vi.2 vi.1.1), vi.1.2.1, vi.1.2.2⟩ := by
  have gen : ∀ (rest done : List (Text × Text × Int)) (s : Seen),
      Seen.After (fun _ => none) (done.map (·.1)) s →
      auxLabels s rest = (rest.zipIdx done.length).map fun vi =>
        ⟨suffixed vi.1.1 (before ((done ++ rest).map (·.1)) vi.2 vi.1.1), vi.1.2.1, vi.1.2.2⟩ := by
    intro rest
    induction rest with
    | nil => intro done s _; rfl
    | cons x xs ih =>
      intro done s hs
      obtain ⟨n, v, r⟩ := x
      obtain ⟨hb, ha⟩ := hs.bump n
      rw [auxLabels, List.zipIdx_cons, List.map_cons]
      have := ih (done ++ [(n, v, r)]) (s.bump n).1 (by simpa using ha)
      simp only [this, List.length_append, List.length_singleton, List.append_assoc, List.singleton_append]
      congr 2
      simp only at hb
      rw [hb]
      simp [before]
  exact gen vars [] _ (by intro n; simp)

/-- **C93** (auxtools): the variables have different names, if those of the game have no `#`. -/
theorem auxLabels_distinct {vars : List (Text × Text × Int)} (h : ∀ v ∈ vars, '#' ∉ v.1) :
    ((auxLabels (fun _ => none) vars).map (·.name)).Nodup := by
  rw [auxLabels_rows, List.map_map]
  rw [List.Nodup, List.pairwise_iff_getElem]
  intro i j hi hj hij he
  simp only [List.length_map, List.length_zipIdx] at hi hj
  simp only [List.getElem_map, List.getElem_zipIdx, Function.comp, Nat.zero_add] at he
  obtain ⟨h1, h2⟩ := suffixed_inj (h _ (List.getElem_mem hi)) (h _ (List.getElem_mem hj)) he
  have := before_lt (names := vars.map (·.1)) (n := vars[i].1) hij (by simp [List.getElem?_eq_getElem hi])
  rw [← h1] at h2
  omega

/-! ## Lists and fields -/

/-- **C93**: a list shows every element in order, counted from one. -/
theorem linear_rows (l : List Val) : (Contents.linear l).vars.length = l.length ∧
    ∀ (i : Nat) (v : Val), l[i]? = some v → (Contents.linear l).vars[i]? = some (.of (indexed [] i) v) := by
  refine ⟨by simp [Contents.vars], fun i v h => ?_⟩
  simp [Contents.vars, h]

/-- **C93**: an associative list shows every key followed by its value. -/
theorem assoc_rows (l : List (Val × Val)) : (Contents.assoc l).vars.length = 2 * l.length ∧
    ∀ (i : Nat) (k v : Val), l[i]? = some (k, v) →
      (Contents.assoc l).vars[2 * i]? = some (.of (indexed ['k', 'e', 'y', 's'] i) k) ∧
      (Contents.assoc l).vars[2 * i + 1]? = some (.of (indexed ['v', 'a', 'l', 's'] i) v) := by
  have gen : ∀ (l : List (Val × Val)) (s : Nat),
      ((l.zipIdx s).flatMap fun vi => [Var.of (indexed ['k', 'e', 'y', 's'] vi.2) vi.1.1,
        Var.of (indexed ['v', 'a', 'l', 's'] vi.2) vi.1.2]).length = 2 * l.length ∧
      ∀ (i : Nat) (k v : Val), l[i]? = some (k, v) →
        ((l.zipIdx s).flatMap fun vi => [Var.of (indexed ['k', 'e', 'y', 's'] vi.2) vi.1.1,
          Var.of (indexed ['v', 'a', 'l', 's'] vi.2) vi.1.2])[2 * i]? =
            some (.of (indexed ['k', 'e', 'y', 's'] (s + i)) k) ∧
        ((l.zipIdx s).flatMap fun vi => [Var.of (indexed ['k', 'e', 'y', 's'] vi.2) vi.1.1,
          Var.of (indexed ['v', 'a', 'l', 's'] vi.2) vi.1.2])[2 * i + 1]? =
            some (.of (indexed ['v', 'a', 'l', 's'] (s + i)) v) := by
    intro l
    induction l with
    | nil => intro s; simp
    | cons x xs ih =>
      intro s
      obtain ⟨h1, h2⟩ := ih (s + 1)
      rw [List.zipIdx_cons, List.flatMap_cons]
      refine ⟨by simp only [List.length_append, List.length_cons, List.length_nil, h1]; omega, ?_⟩
      intro i k v hi
      cases i with
      | zero =>
        simp only [List.getElem?_cons_zero, Option.some.injEq] at hi
        subst hi
        simp
      | succ j =>
        have := h2 j k v (by simpa using hi)
        have e1 : 2 * (j + 1) = 2 * j + 1 + 1 := by omega
        rw [e1]
        simp only [List.cons_append, List.nil_append, List.getElem?_cons_succ]
        rw [this.1, this.2, show s + 1 + j = s + (j + 1) by omega]
        exact ⟨rfl, rfl⟩
  obtain ⟨h1, h2⟩ := gen l 0
  refine ⟨h1, fun i k v hi => ?_⟩
  have := h2 i k v hi
  rw [Nat.zero_add] at this
  exact this

theorem indexed_inj {n m : Text} {i j : Nat} (hn : '[' ∉ n) (hm : '[' ∉ m)
    (h : indexed n i = indexed m j) : n = m ∧ i = j := by
  have tw : ∀ (a x : Text), '[' ∉ a → (a ++ '[' :: x).takeWhile (· ≠ '[') = a ∧
      (a ++ '[' :: x).dropWhile (· ≠ '[') = '[' :: x := by
    intro a x ha
    induction a with
    | nil => simp
    | cons c cs ih =>
      have hc : c ≠ '[' := fun e => ha (by rw [e]; exact List.mem_cons_self)
      have := ih fun hm => ha (List.mem_cons_of_mem _ hm)
      simp only [List.cons_append, List.takeWhile_cons, List.dropWhile_cons, hc, ne_eq, not_false_eq_true,
        decide_true, if_true]
      exact ⟨by rw [this.1], this.2⟩
  unfold indexed at h
  rw [List.append_assoc, List.append_assoc, List.cons_append, List.cons_append] at h
  have h1 := (tw n (showNat (1 + i) ++ [']']) hn)
  have h2 := (tw m (showNat (1 + j) ++ [']']) hm)
  refine ⟨by rw [← h1.1, h, h2.1], ?_⟩
  have : '[' :: (showNat (1 + i) ++ [']']) = '[' :: (showNat (1 + j) ++ [']']) := by
    rw [← h1.2, h, h2.2]
  simp only [List.cons.injEq, true_and, List.append_cancel_right_eq] at this
  have := showNat_inj this
  omega

theorem insertField_perm (e : Text × Val) (l : List (Text × Val)) : (insertField e l).Perm (e :: l) := by
  induction l with
  | nil => exact .refl _
  | cons x xs ih =>
    rw [insertField]
    split
    · exact .refl _
    · exact (ih.cons x).trans (.swap ..)

theorem sortFields_perm (l : List (Text × Val)) : (sortFields l).Perm l := by
  induction l with
  | nil => exact .refl _
  | cons x xs ih => exact (insertField_perm _ _).trans (ih.cons x)

theorem textLe_trans {a b c : Text} (h1 : textLe a b = true) (h2 : textLe b c = true) : textLe a c = true := by
  induction a generalizing b c with
  | nil => rfl
  | cons x xs ih =>
    cases b with
    | nil => cases h1
    | cons y ys =>
      cases c with
      | nil => cases h2
      | cons z zs =>
        simp only [textLe, Bool.or_eq_true, decide_eq_true_eq, Bool.and_eq_true, beq_iff_eq] at h1 h2 ⊢
        rcases h1 with h1 | ⟨h1, h1'⟩
        · rcases h2 with h2 | ⟨h2, -⟩
          · exact .inl (by omega)
          · exact .inl (by omega)
        · rcases h2 with h2 | ⟨h2, h2'⟩
          · exact .inl (by omega)
          · exact .inr ⟨by omega, ih h1' h2'⟩

theorem textLe_antisymm {a b : Text} (h1 : textLe a b = true) (h2 : textLe b a = true) : a = b := by
  induction a generalizing b with
  | nil =>
    cases b with
    | nil => rfl
    | cons y ys => cases h2
  | cons x xs ih =>
    cases b with
    | nil => cases h1
    | cons y ys =>
      simp only [textLe, Bool.or_eq_true, decide_eq_true_eq, Bool.and_eq_true, beq_iff_eq] at h1 h2
      have hxy : x.toNat = y.toNat := by omega
      rw [ih (h1.resolve_left (by omega)).2 (h2.resolve_left (by omega)).2, Char.toNat_inj.1 hxy]

theorem insertField_sorted (e : Text × Val) (l : List (Text × Val))
    (h : l.Pairwise fun a b => textLe a.1 b.1 = true) :
    (insertField e l).Pairwise fun a b => textLe a.1 b.1 = true := by
  induction l with
  | nil => simp [insertField]
  | cons x xs ih =>
    rw [List.pairwise_cons] at h
    rw [insertField]
    split
    · next he =>
      rw [List.pairwise_cons, List.pairwise_cons]
      refine ⟨fun y hy => ?_, h⟩
      rcases List.mem_cons.1 hy with rfl | hy
      · exact he
      · exact textLe_trans he (h.1 y hy)
    · next he =>
      rw [List.pairwise_cons]
      refine ⟨fun y hy => ?_, ih h.2⟩
      have hx : textLe x.1 e.1 = true := by
        have := textLe_total e.1 x.1
        simpa [he] using this
      rcases List.mem_cons.1 ((insertField_perm e xs).mem_iff.1 hy) with rfl | hy
      · exact hx
      · exact h.1 y hy

theorem sortFields_sorted (l : List (Text × Val)) :
    (sortFields l).Pairwise fun a b => textLe a.1 b.1 = true := by
  induction l with
  | nil => exact .nil
  | cons x xs ih => exact insertField_sorted _ _ ih

theorem nodup_key {l : List (Text × Val)} (h : (l.map (·.1)).Nodup) {a b : Text × Val} (ha : a ∈ l)
    (hb : b ∈ l) (he : a.1 = b.1) : a = b := by
  have hp : l.Pairwise fun a b => a.1 ≠ b.1 := List.pairwise_map.1 h
  have h1 := find_of_mem (fun x : Text × Val => x.1) hp ha
  have h2 := find_of_mem (fun x : Text × Val => x.1) hp hb
  rw [he, h2, Option.some.injEq] at h1
  exact h1.symm

/-- **C93**: the fields of an object are all shown, in the order of their names, whatever the order of the
hash table. -/
theorem fields_rows {l l' : List (Text × Val)} (h : l.Perm l') (hd : (l.map (·.1)).Nodup) :
    (sortFields l).Perm l ∧ ((sortFields l).Pairwise fun a b => textLe a.1 b.1 = true) ∧
      sortFields l = sortFields l' := by
  refine ⟨sortFields_perm l, sortFields_sorted l, ?_⟩
  have hp : (sortFields l).Perm (sortFields l') := (sortFields_perm l).trans (h.trans (sortFields_perm l').symm)
  refine hp.eq_of_pairwise ?_ (sortFields_sorted l) (sortFields_sorted l')
  intro a b ha hb h1 h2
  have ha' := (sortFields_perm l).mem_iff.1 ha
  have hb' := h.mem_iff.2 ((sortFields_perm l').mem_iff.1 hb)
  exact nodup_key hd ha' hb' (textLe_antisymm h1 h2)

/-! ## Disassembly -/

theorem digitsVal_eq (l : Text) (h : ∀ c ∈ l, c.isDigit = true) (acc : Nat) :
    digitsVal l acc = some (Nat.ofDigitChars 10 l acc) := by
  induction l generalizing acc with
  | nil => simp [digitsVal]
  | cons c t ih =>
    rw [digitsVal, if_pos (h c (by simp)), ih (fun c hc => h c (by simp [hc])), Nat.ofDigitChars_cons,
      Nat.mul_comm]
    rfl

theorem parseUsize_showNat {n : Nat} (h : n < 2 ^ 64) : parseUsize (showNat n) = some n := by
  have hv := digitsVal_eq (showNat n) (fun c => showNat_digit) 0
  rw [show Nat.ofDigitChars 10 (showNat n) 0 = n by simp [showNat]] at hv
  unfold parseUsize
  cases hs : showNat n with
  | nil => exact absurd hs (showNat_ne n)
  | cons c cs =>
    have hc : c ≠ '+' := fun e => by
      have := showNat_digit (n := n) (c := c) (by rw [hs]; simp)
      rw [e] at this
      exact absurd this (by decide)
    rw [hs] at hv
    simp only
    split
    · next e => cases e
    · next e => cases e; exact absurd rfl hc
    · next e => cases e; exact absurd rfl hc
    · rw [hv]; simp [h]

theorem takeDrop {c : Char} (a x : Text) (ha : c ∉ a) : (a ++ c :: x).takeWhile (· ≠ c) = a ∧
    (a ++ c :: x).dropWhile (· ≠ c) = c :: x := by
  induction a with
  | nil => simp
  | cons d ds ih =>
    have hc : d ≠ c := fun e => ha (by rw [e]; exact List.mem_cons_self)
    have := ih fun hm => ha (List.mem_cons_of_mem _ hm)
    simp only [List.cons_append, List.takeWhile_cons, List.dropWhile_cons, hc, ne_eq, not_false_eq_true,
      decide_true, if_true]
    exact ⟨by rw [this.1], this.2⟩

theorem memoryReference_of {digit : Char → Bool} {proc num off : Text} (hp : proc ≠ []) (hph : '#' ∉ proc)
    (hn : num ≠ []) (hnd : ∀ c ∈ num, digit c = true) (hna : '@' ∉ num) (ho : off ≠ [])
    (hod : ∀ c ∈ off, digit c = true) :
    memoryReference digit (proc ++ '#' :: (num ++ '@' :: off)) = some (proc, num) := by
  unfold memoryReference
  have h1 := takeDrop (c := '#') proc (num ++ '@' :: off) hph
  have h2 := takeDrop (c := '@') num off hna
  simp only [h1.1, h1.2, List.drop_succ_cons, List.drop_zero, h2.1, h2.2]
  rw [if_pos]
  refine ⟨hp, by simp, by simp, hn, List.all_eq_true.2 hnd, ho, List.all_eq_true.2 hod⟩

/-- **C93**: every address that `Disassemble` tells can be disassembled, with the same result. -/
theorem disassemble_addresses {digit : Char → Bool} (hd : ∀ c : Char, c.isDigit = true → digit c = true)
    {code : Text → Nat → List Instr} {proc : Text} {ov : Nat} (hp : proc ≠ []) (hph : '#' ∉ proc)
    (hov : ov < 2 ^ 64) (hoff : ∀ i ∈ code proc ov, 0 ≤ i.offset) {num off : Text}
    (hnum : num ≠ [] ∧ ∀ c ∈ num, c.isDigit = true) (hval : parseUsize num = some ov)
    (hof : off ≠ [] ∧ ∀ c ∈ off, c.isDigit = true) :
    ∃ rows, disassemble digit code (proc ++ '#' :: (num ++ '@' :: off)) = .ok rows ∧
      rows.length = (code proc ov).length ∧
      ∀ row ∈ rows, disassemble digit code row.1 = .ok rows := by
  have main : ∀ (num off : Text), (num ≠ [] ∧ ∀ c ∈ num, c.isDigit = true) → parseUsize num = some ov →
      (off ≠ [] ∧ ∀ c ∈ off, c.isDigit = true) →
      disassemble digit code (proc ++ '#' :: (num ++ '@' :: off)) = .ok ((code proc ov).map fun i =>
        (proc ++ '#' :: showNat ov ++ '@' :: showInt i.offset, i.mnemonic ++ ' ' :: ' ' :: i.comment)) := by
    intro num off hnum hval hof
    unfold disassemble
    rw [memoryReference_of hp hph hnum.1 (fun c hc => hd c (hnum.2 c hc))
      (fun hm => by have := hnum.2 _ hm; revert this; decide) hof.1 (fun c hc => hd c (hof.2 c hc))]
    simp only [hval]
  refine ⟨_, main num off hnum hval hof, by simp, fun row hrow => ?_⟩
  obtain ⟨i, hi, rfl⟩ := List.mem_map.1 hrow
  simp only
  have h0 := hoff i hi
  obtain ⟨k, hk⟩ : ∃ k : Nat, i.offset = k := ⟨i.offset.toNat, by omega⟩
  rw [hk, List.append_assoc, List.cons_append]
  exact main (showNat ov) (showNat k) ⟨showNat_ne _, fun c => showNat_digit⟩
    (parseUsize_showNat hov) ⟨showNat_ne _, fun c => showNat_digit⟩

/-- **C93** (disagreement): `Disassemble` refuses every reference that `StackTrace` gives for the
instruction of a frame (the places of `#` and `@` are swapped). -/
theorem pointer_disagrees (digit : Char → Bool) (code : Text → Nat → List Instr) (f : Frame)
    (h : '#' ∉ f.proc) : disassemble digit code (pointerOf f) = .error := by
  unfold disassemble
  have hn : '#' ∉ f.proc ++ '@' :: showNat f.ov := by
    simp only [List.mem_append, List.mem_cons, not_or]
    exact ⟨h, by decide, not_mem_showNat (by decide)⟩
  have ho : '@' ∉ showInt f.offset := by
    unfold showInt
    split
    · exact not_mem_showNat (by decide)
    · simp only [List.mem_cons, not_or]
      exact ⟨by decide, not_mem_showNat (by decide)⟩
  have : memoryReference digit (pointerOf f) = none := by
    unfold memoryReference pointerOf
    have h1 := takeDrop (c := '#') (f.proc ++ '@' :: showNat f.ov) (showInt f.offset) hn
    simp only [h1.1, h1.2, List.drop_succ_cons, List.drop_zero]
    rw [if_neg]
    rintro ⟨-, -, h3, -⟩
    exact ho h3
  rw [this]

/-- **C93**: in a frame that was given, `#dis` and `#disassemble` list the byte code of the proc of that
frame, `#help` (and what starts so) shows the help, with a frame or without, and everything else is an
error. -/
theorem evaluate_shows {ts : Threads} {t i : Nat} {f : Frame} {id : Int} (hf : FrameAt ts t i f)
    (h : GivenId ts t i id) (hs : id < 2 ^ 64) (white : Char → Bool) (code : Text → Nat → List Instr)
    (e : Text) :
    evaluate white ts code (some id) e =
      (if hHelp.isPrefixOf (trimStart white e) then .ok .help
      else if trimStart white e ∈ [hDis, hDisassemble] then .ok (.listing (code f.proc f.ov))
      else .error) ∧
    evaluate white ts code none e =
      (if hHelp.isPrefixOf (trimStart white e) then .ok .help else .error) := by
  obtain ⟨-, rfl⟩ := givenId_iff.1 h
  obtain ⟨st, ht, hi⟩ := hf
  have htf := threadByFrame_given (i := i) ht (Int.ofNat_lt.1 hs)
  constructor
  · unfold evaluate
    simp only
    by_cases hh : hHelp.isPrefixOf (trimStart white e) = true
    · rw [if_pos hh, if_pos hh]
    · rw [if_neg hh, if_neg hh]
      simp only [htf, hi]
      by_cases hd : trimStart white e ∈ [hDis, hDisassemble]
      · rw [if_pos hd]
        simp only [List.mem_cons, List.not_mem_nil, or_false] at hd
        rw [if_pos, if_pos hd]
        rcases hd with hd | hd <;> rw [hd] <;> rfl
      · rw [if_neg hd]
        simp only [List.mem_cons, List.not_mem_nil, or_false] at hd
        simp only [if_neg hd, ite_self]
  · unfold evaluate
    simp only

end Verif.Debug
