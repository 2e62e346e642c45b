import Verif.Dmm.TextSpec
import Verif.Dmm.KeysProps

/-! Simulation lemmas for the dictionary part of the map reader. -/

namespace Verif.Dmm

variable {C : Type} (showV : C → List Char) (evalV : List Char → Option C)

/-- reading the text `t` takes the loop from `s` to `s'` -/
def Runs (s : DState C) (t : List Char) (s' : DState C) : Prop :=
  ∀ rest, dictLoop evalV s (t ++ rest) = dictLoop evalV s' rest

variable {evalV}

theorem Runs.nil (s : DState C) : Runs evalV s [] s := fun _ => rfl

theorem Runs.trans {s s' s'' : DState C} {t u : List Char} (h : Runs evalV s t s')
    (h' : Runs evalV s' u s'') : Runs evalV s (t ++ u) s'' := by
  intro rest; rw [List.append_assoc, h, h']

theorem Runs.one {s s' : DState C} {c : Char} (h : step evalV s c = .cont s') :
    Runs evalV s [c] s' := by
  intro rest; simp [dictLoop, h]

theorem Runs.cons {s s' s'' : DState C} {c : Char} {t : List Char}
    (h : step evalV s c = .cont s') (h' : Runs evalV s' t s'') : Runs evalV s (c :: t) s'' :=
  Runs.trans (t := [c]) (Runs.one h) h'

/-! ### comments -/

theorem runs_comment (s : DState C) (hs : s.inComment = true) (t : List Char)
    (ht : ∀ c ∈ t, c ≠ '\n' ∧ c ≠ '\r') : Runs evalV s t s := by
  induction t with
  | nil => exact Runs.nil s
  | cons c t ih =>
    refine Runs.cons (s' := s) ?_ (ih fun c hc => ht c (by simp [hc]))
    have := ht c (by simp)
    simp [step, this, hs]

/-! ### slashes -/

theorem noDouble_tail {c : Char} {t : List Char} (h : NoDoubleSlash (c :: t)) :
    NoDoubleSlash t := fun h' => h (h'.trans (List.suffix_cons c t).isInfix)

theorem noDouble_two {t : List Char} (h : NoDoubleSlash ('/' :: '/' :: t)) : False :=
  h ⟨[], t, rfl⟩

/-- generic push lemma: a family of states indexed by (`trig`, `datum`) on which every character of
`p` is pushed -/
theorem runs_push (st : Bool → List Char → DState C) (p d : List Char)
    (hstep : ∀ c ∈ p, ∀ b d, (b = true → c ≠ '/') →
      step evalV (st b d) c = .cont (st (c == '/') (d ++ [c])))
    (b : Bool) (hp : NoDoubleSlash (if b then '/' :: p else p)) :
    ∃ b', Runs evalV (st b d) p (st b' (d ++ p)) := by
  induction p generalizing d b with
  | nil => exact ⟨b, by simpa using Runs.nil (evalV := evalV) (st b d)⟩
  | cons c p ih =>
    have hc : b = true → c ≠ '/' := by
      intro hb hc
      subst hb hc
      exact noDouble_two (by simpa using hp)
    have htl : NoDoubleSlash (if (c == '/') then '/' :: p else p) := by
      have h1 : NoDoubleSlash (c :: p) := by
        cases b
        · simpa using hp
        · exact noDouble_tail (by simpa using hp)
      by_cases hcs : c = '/'
      · subst hcs; simpa using h1
      · simpa [hcs] using noDouble_tail h1
    obtain ⟨b', hb'⟩ := ih (d ++ [c]) (fun c hc => hstep c (by simp [hc])) (c == '/') htl
    refine ⟨b', ?_⟩
    have := Runs.cons (hstep c (by simp) b d hc) hb'
    simpa using this

/-! ### states -/

/-- in a data block, outside `{}` -/
def dataSt (kl key : Nat) (dict : List (Nat × List (Prefab C))) (data : List (Prefab C))
    (fab : Prefab C) (trig : Bool) (datum : List Char) : DState C :=
  { trig, data, fab, datum, key, keyLen := kl, inData := true, mapKeyLen := kl, dict }

/-- in a `{}` block -/
def varSt (kl key : Nat) (dict : List (Nat × List (Prefab C))) (data : List (Prefab C))
    (fab : Prefab C) (var : List Char) (skipWs : Bool) (trig : Bool) (datum : List Char) :
    DState C :=
  { trig, data, fab, datum, key, keyLen := kl, inData := true, mapKeyLen := kl, dict, inVar := true,
    var, skipWs }

/-- in a quoted part -/
def quoteSt (kl key : Nat) (dict : List (Nat × List (Prefab C))) (data : List (Prefab C))
    (fab : Prefab C) (var : List Char) (esc : Bool) (datum : List Char) :
    DState C :=
  { data, fab, datum, key, keyLen := kl, inData := true, mapKeyLen := kl, dict, inVar := true,
    var, inQuote := true, esc }

/-- between entries -/
def idleSt (kl : Nat) (dict : List (Nat × List (Prefab C))) (after : Bool) : DState C :=
  { mapKeyLen := kl, dict, afterData := after }

variable {kl key : Nat} {dict : List (Nat × List (Prefab C))} {data : List (Prefab C)}
  {fab : Prefab C} {var : List Char}

theorem runs_path (p : List Char) (hp : PathOk p) :
    ∃ b, Runs evalV (dataSt kl key dict data fab false []) p
      (dataSt kl key dict data fab b p) := by
  have := runs_push (evalV := evalV) (dataSt kl key dict data fab) p [] ?_ false
    (by simpa using hp.slashes)
  · simpa using this
  · intro c hc b d hb
    have h := hp.chars c hc
    simp only [List.mem_cons, List.not_mem_nil, or_false, not_or] at h
    by_cases hs : c = '/'
    · subst hs
      cases b
      · simp [step, dataSt, stepMain, stepData]
      · exact absurd rfl (hb rfl)
    · simp [step, dataSt, stepMain, stepData, h, hs]

theorem varStep_push (c : Char) (b : Bool) (d : List Char) (sk : Bool)
    (h : c ∉ ['\n', '\r', '\t', '"', ';', '}']) (heq : c = '=' → var ≠ [])
    (hsk : sk = true → c ≠ ' ') (hb : b = true → c ≠ '/') :
    step evalV (varSt kl key dict data fab var sk b d) c =
      .cont (varSt kl key dict data fab var false (c == '/') (d ++ [c])) := by
  simp only [List.mem_cons, List.not_mem_nil, or_false, not_or] at h
  by_cases hs : c = '/'
  · subst hs
    cases b
    · cases sk <;> simp [step, varSt, stepMain, stepVar, stepVarCore]
    · exact absurd rfl (hb rfl)
  · by_cases he : c = '='
    · subst he
      have := heq rfl
      cases sk <;> simp [step, varSt, stepMain, stepVar, stepVarCore, this]
    · cases sk
      · simp [step, varSt, stepMain, stepVar, stepVarCore, h, hs, he]
      · have := hsk rfl
        simp [step, varSt, stepMain, stepVar, stepVarCore, h, hs, he, this]

theorem runs_plain (p d : List Char) (hp : PlainOk p) (hv : var ≠ []) :
    ∃ b, Runs evalV (varSt kl key dict data fab var false false d) p
      (varSt kl key dict data fab var false b (d ++ p)) := by
  apply runs_push (evalV := evalV) (varSt kl key dict data fab var false) p d ?_ false
    (by simpa using hp.slashes)
  intro c hc b d hb
  exact varStep_push c b d false (hp.chars c hc) (fun _ => hv) (by simp) hb

theorem runs_name (n : List Char) (sk : Bool) (hn : NameOk n) :
    ∃ b, Runs evalV (varSt kl key dict data fab [] sk false []) n
      (varSt kl key dict data fab [] false b n) := by
  obtain ⟨hne, hch, hsl, hhd, -⟩ := hn
  cases n with
  | nil => exact absurd rfl hne
  | cons c n =>
    have hc := hch c (by simp)
    have h1 := varStep_push (evalV := evalV) (kl := kl) (key := key) (dict := dict) (data := data)
      (fab := fab) (var := []) c false [] sk (by simp at hc ⊢; tauto)
      (by intro h; subst h; simp at hc) (by intro _ h; subst h; simp at hhd) (by simp)
    obtain ⟨b, h2⟩ := runs_push (evalV := evalV) (varSt kl key dict data fab [] false) n [c] (by
      intro c hc b d hb
      have hc := hch c (by simp [hc])
      exact varStep_push c b d false (by simp at hc ⊢; tauto)
        (by intro h; subst h; simp at hc) (by simp) hb) (c == '/') (by
      by_cases hs : c = '/'
      · subst hs; simpa using hsl
      · simpa [hs] using noDouble_tail hsl)
    exact ⟨b, by simpa using Runs.cons h1 (by simpa using h2)⟩

theorem runs_quoteBody (q : List Char) (hq : QuoteBody q) : ∀ d,
    Runs evalV (quoteSt kl key dict data fab var false d) q
      (quoteSt kl key dict data fab var false (d ++ q)) := by
  induction hq with
  | nil => intro d; simpa using Runs.nil (evalV := evalV) _
  | plain c r hc _ ih =>
    intro d
    simp only [List.mem_cons, List.not_mem_nil, or_false, not_or] at hc
    have := ih (d ++ [c])
    rw [List.append_assoc] at this
    refine Runs.cons ?_ this
    simp [step, quoteSt, stepMain, stepQuote, hc]
  | esc n c r hc _ ih =>
    intro d
    simp only [List.mem_cons, List.not_mem_nil, or_false, not_or] at hc
    have hrun : ∀ (n : Nat) (e : Bool) (d : List Char),
        Runs evalV (quoteSt kl key dict data fab var e d) (List.replicate (n + 1) '\\')
          (quoteSt kl key dict data fab var true (d ++ List.replicate (n + 1) '\\')) := by
      intro n
      induction n with
      | zero =>
        intro e d
        apply Runs.one
        simp [step, quoteSt, stepMain, stepQuote]
      | succ n ihn =>
        intro e d
        have := ihn true (d ++ ['\\'])
        rw [List.append_assoc] at this
        rw [List.replicate_succ]
        refine Runs.cons ?_ this
        simp [step, quoteSt, stepMain, stepQuote]
    refine Runs.trans (hrun n false d) ?_
    have := ih (d ++ List.replicate (n + 1) '\\' ++ [c])
    simp only [List.append_assoc] at this
    refine Runs.cons ?_ (by simpa using this)
    simp [step, quoteSt, stepMain, stepQuote, hc]

theorem runs_value (t : List Char) (ht : ValueOk t) (hv : var ≠ []) : ∀ d,
    ∃ b, Runs evalV (varSt kl key dict data fab var false false d) t
      (varSt kl key dict data fab var false b (d ++ t)) := by
  induction ht with
  | plain p hp => intro d; exact runs_plain p d hp hv
  | quoted p q r hp hq _ ih =>
    intro d
    obtain ⟨b1, h1⟩ := runs_plain (evalV := evalV) (kl := kl) (key := key) (dict := dict)
      (data := data) (fab := fab) p d hp hv
    obtain ⟨b3, h3⟩ := ih (d ++ p ++ ['"'] ++ q ++ ['"'])
    refine ⟨b3, ?_⟩
    have e1 : step evalV (varSt kl key dict data fab var false b1 (d ++ p)) '"' =
        .cont (quoteSt kl key dict data fab var false (d ++ p ++ ['"'])) := by
      simp [step, varSt, quoteSt, stepMain, stepVar, stepVarCore]
    have e2 : step evalV (quoteSt kl key dict data fab var false (d ++ p ++ ['"'] ++ q)) '"' =
        .cont (varSt kl key dict data fab var false false (d ++ p ++ ['"'] ++ q ++ ['"'])) := by
      simp [step, varSt, quoteSt, stepMain, stepQuote]
    have := Runs.trans h1 (Runs.cons e1 (Runs.trans (runs_quoteBody q hq _) (Runs.cons e2 h3)))
    simpa using this

theorem trimEnd_name (n : List Char) (hn : NameOk n) : trimEnd (n ++ [' ']) = n := by
  obtain ⟨hne, -, -, -, hl⟩ := hn
  have hsp : isWs ' ' = true := by decide
  unfold trimEnd
  rw [List.reverse_append, List.reverse_singleton, List.singleton_append, List.dropWhile_cons,
    if_pos hsp]
  rcases List.eq_nil_or_concat n with h | ⟨n', c, rfl⟩
  · exact absurd h hne
  · have := hl c (by simp)
    simp [this]

theorem varsInsert_new (k : List Char) (v : C) (vs : List (List Char × C))
    (h : k ∉ vs.map Prod.fst) : varsInsert k v vs = vs ++ [(k, v)] := by
  induction vs with
  | nil => rfl
  | cons p vs ih =>
    obtain ⟨k', v'⟩ := p
    simp only [List.map_cons, List.mem_cons, not_or] at h
    simp [varsInsert, h.1, ih h.2]

variable {showV}

/-- `\n\tname = value` up to but excluding the terminator -/
theorem runs_assign (n : List Char) (v : C) (sk trig : Bool) (hn : NameOk n)
    (hv : ValueOk (showV v)) :
    ∃ b, Runs evalV (varSt kl key dict data fab [] sk trig [])
      ("\n\t".toList ++ n ++ " = ".toList ++ showV v)
      (varSt kl key dict data fab n false b (showV v)) := by
  obtain ⟨b1, h1⟩ := runs_name (evalV := evalV) (kl := kl) (key := key) (dict := dict)
    (data := data) (fab := fab) n sk hn
  obtain ⟨b2, h2⟩ := runs_value (evalV := evalV) (kl := kl) (key := key) (dict := dict)
    (data := data) (fab := fab) (var := n) (showV v) hv hn.ne []
  refine ⟨b2, ?_⟩
  have e1 : step evalV (varSt kl key dict data fab [] sk trig []) '\n' =
      .cont (varSt kl key dict data fab [] sk false []) := by simp [step, varSt]
  have e2 : step evalV (varSt kl key dict data fab [] sk false []) '\t' =
      .cont (varSt kl key dict data fab [] sk false []) := by simp [step, varSt]
  have e3 : step evalV (varSt kl key dict data fab [] false b1 n) ' ' =
      .cont (varSt kl key dict data fab [] false false (n ++ [' '])) := by
    simp [step, varSt, stepMain, stepVar, stepVarCore]
  have e4 : step evalV (varSt kl key dict data fab [] false false (n ++ [' '])) '=' =
      .cont (varSt kl key dict data fab n true false []) := by
    simp [step, varSt, stepMain, stepVar, stepVarCore, trimEnd_name n hn]
  have e5 : step evalV (varSt kl key dict data fab n true false []) ' ' =
      .cont (varSt kl key dict data fab n false false []) := by
    simp [step, varSt, stepMain, stepVar]
  have := Runs.cons e1 (Runs.cons e2 (Runs.trans h1 (Runs.cons e3 (Runs.cons e4 (Runs.cons e5 h2)))))
  simpa using this

theorem runs_vars (vs : List (List Char × C)) : ∀ (done : List (List Char × C)) (sk trig : Bool)
    (path : List Char), vs ≠ [] →
    (∀ p ∈ vs, NameOk p.1) → (∀ p ∈ vs, ValueOk (showV p.2) ∧ evalV (showV p.2) = some p.2) →
    ((done ++ vs).map Prod.fst).Nodup →
    ∃ b, Runs evalV (varSt kl key dict data ⟨path, done⟩ [] sk trig [])
      (varsText showV vs ++ "\n\t}".toList)
      (dataSt kl key dict data ⟨path, done ++ vs⟩ b []) := by
  induction vs with
  | nil => intro _ _ _ _ h; exact absurd rfl h
  | cons p vs ih =>
    intro done sk trig path _ hn hv hnd
    obtain ⟨n, v⟩ := p
    have hn1 := hn (n, v) (by simp)
    obtain ⟨hv1, hv2⟩ := hv (n, v) (by simp)
    simp only at hn1 hv1 hv2
    have hnew : varsInsert n v done = done ++ [(n, v)] := by
      apply varsInsert_new
      rw [List.map_append, List.nodup_append] at hnd
      intro hm
      exact hnd.2.2 n hm n (by simp) rfl
    obtain ⟨b, h1⟩ := runs_assign (evalV := evalV) (showV := showV) (kl := kl) (key := key)
      (dict := dict) (data := data) (fab := ⟨path, done⟩) n v sk trig hn1 hv1
    cases vs with
    | nil =>
      refine ⟨false, ?_⟩
      have e1 : step evalV (varSt kl key dict data ⟨path, done⟩ n false b (showV v)) '\n' =
          .cont (varSt kl key dict data ⟨path, done⟩ n false false (showV v)) := by
        simp [step, varSt]
      have e2 : step evalV (varSt kl key dict data ⟨path, done⟩ n false false (showV v)) '\t' =
          .cont (varSt kl key dict data ⟨path, done⟩ n false false (showV v)) := by
        simp [step, varSt]
      have e3 : step evalV (varSt kl key dict data ⟨path, done⟩ n false false (showV v)) '}' =
          .cont (dataSt kl key dict data ⟨path, done ++ [(n, v)]⟩ false []) := by
        simp [step, varSt, dataSt, stepMain, stepVar, stepVarCore, hn1.ne, insertVar, hv2, hnew]
      have := Runs.trans h1 (Runs.cons e1 (Runs.cons e2 (Runs.one e3)))
      simpa [varsText] using this
    | cons p2 vs =>
      obtain ⟨b2, h2⟩ := ih (done ++ [(n, v)]) true false path (by simp)
        (fun p hp => hn p (by simp [hp])) (fun p hp => hv p (by simp [hp])) (by simpa using hnd)
      refine ⟨b2, ?_⟩
      have e1 : step evalV (varSt kl key dict data ⟨path, done⟩ n false b (showV v)) ';' =
          .cont (varSt kl key dict data ⟨path, done ++ [(n, v)]⟩ [] true false []) := by
        simp [step, varSt, stepMain, stepVar, stepVarCore, insertVar, hv2, hnew]
      have := Runs.trans h1 (Runs.cons e1 h2)
      simpa [varsText] using this

/-- a prefab followed by its separator `,` or the closing `)`: state just before the separator -/
theorem runs_fab (f : Prefab C) (hf : PrefabOk showV evalV f) :
    ∃ b fab' d', Runs evalV (dataSt kl key dict data ⟨[], []⟩ false []) (fabText showV f)
      (dataSt kl key dict data fab' b d') ∧
      pushFab (dataSt kl key dict data fab' false d') =
        dataSt kl key dict (data ++ [f]) ⟨[], []⟩ false [] := by
  obtain ⟨path, vars⟩ := f
  obtain ⟨hp, hn, hd, hv⟩ := hf
  simp only at hp hn hd hv
  obtain ⟨b1, h1⟩ := runs_path (evalV := evalV) (kl := kl) (key := key) (dict := dict)
    (data := data) (fab := ⟨[], []⟩) path hp
  by_cases hvs : vars = []
  · subst hvs
    refine ⟨b1, ⟨[], []⟩, path, by simpa [fabText] using h1, ?_⟩
    simp [pushFab, dataSt, hp.ne]
  · obtain ⟨b2, h2⟩ := runs_vars (evalV := evalV) (showV := showV) (kl := kl) (key := key)
      (dict := dict) (data := data) vars [] false false path hvs hn hv (by simpa using hd)
    refine ⟨b2, ⟨path, vars⟩, [], ?_, ?_⟩
    · have e1 : step evalV (dataSt kl key dict data ⟨[], []⟩ b1 path) '{' =
          .cont (varSt kl key dict data ⟨path, []⟩ [] false false []) := by
        simp [step, dataSt, varSt, stepMain, stepData]
      have := Runs.trans h1 (Runs.cons e1 h2)
      simpa [fabText, hvs] using this
    · simp [pushFab, dataSt]

theorem runs_fabs (fs : List (Prefab C)) : ∀ data, fs ≠ [] → (∀ f ∈ fs, PrefabOk showV evalV f) →
    Runs evalV (dataSt kl key dict data ⟨[], []⟩ false []) (fabsText showV fs ++ ")\n".toList)
      (idleSt kl (dictInsert key (data ++ fs) dict) true) := by
  induction fs with
  | nil => intro _ h; exact absurd rfl h
  | cons f fs ih =>
    intro data _ hf
    obtain ⟨b, fab', d', h1, h2⟩ := runs_fab (evalV := evalV) (showV := showV) (kl := kl)
      (key := key) (dict := dict) (data := data) f (hf f (by simp))
    cases fs with
    | nil =>
      have e1 : step evalV (dataSt kl key dict data fab' b d') ')' =
          .cont (idleSt kl (dictInsert key (data ++ [f]) dict) true) := by
        have : step evalV (dataSt kl key dict data fab' b d') ')' =
            stepData (dataSt kl key dict data fab' false d') ')' := by
          simp [step, dataSt, stepMain]
        rw [this]
        simp only [stepData, h2, Char.reduceEq, if_false, if_true]
        simp [dataSt, idleSt]
      have e2 : step evalV (idleSt kl (dictInsert key (data ++ [f]) dict) true) '\n' =
          .cont (idleSt kl (dictInsert key (data ++ [f]) dict) true) := by
        simp [step, idleSt]
      have := Runs.trans h1 (Runs.cons e1 (Runs.one e2))
      simpa [fabsText] using this
    | cons f2 fs =>
      have e1 : step evalV (dataSt kl key dict data fab' b d') ',' =
          .cont (dataSt kl key dict (data ++ [f]) ⟨[], []⟩ false []) := by
        have : step evalV (dataSt kl key dict data fab' b d') ',' =
            stepData (dataSt kl key dict data fab' false d') ',' := by
          simp [step, dataSt, stepMain]
        rw [this]
        simp only [stepData, h2, Char.reduceEq, if_false, if_true]
      have e2 : step evalV (dataSt kl key dict (data ++ [f]) ⟨[], []⟩ false []) '\n' =
          .cont (dataSt kl key dict (data ++ [f]) ⟨[], []⟩ false []) := by
        simp [step, dataSt]
      have h3 := ih (data ++ [f]) (by simp) (fun f hf' => hf f (by simp [hf']))
      have := Runs.trans h1 (Runs.cons e1 (Runs.cons e2 h3))
      simpa [fabsText] using this

/-! ### keys -/

theorem rev_letter (c : Char) (d : Nat) (h : base52Reverse c = some d) :
    c ≠ '\n' ∧ c ≠ '\r' ∧ c ≠ '\t' ∧ c ≠ '/' ∧ c ≠ '"' := by
  refine ⟨?_, ?_, ?_, ?_, ?_⟩ <;> (rintro rfl; simp [base52Reverse] at h)

theorem runs_key (t : List Char) : ∀ (k n mk : Nat) (k' : Nat), t.foldlM advanceKey k = some k' →
    n + t.length < 256 →
    Runs evalV ({ key := k, keyLen := n, inKey := true, mapKeyLen := mk, dict } : DState C) t
      { key := k', keyLen := n + t.length, inKey := true, mapKeyLen := mk, dict } := by
  induction t with
  | nil =>
    intro k n mk k' h _
    simp at h
    subst h
    simpa using Runs.nil (evalV := evalV) _
  | cons c t ih =>
    intro k n mk k' h hn
    rw [List.foldlM_cons] at h
    cases ha : advanceKey k c with
    | none => rw [ha] at h; simp at h
    | some k1 =>
      rw [ha] at h
      simp only [List.length_cons] at hn ⊢
      have h2 := ih k1 (n + 1) mk k' (by simpa using h) (by omega)
      have hc : ∃ d, base52Reverse c = some d := by
        unfold advanceKey at ha
        cases hr : base52Reverse c with
        | none => rw [hr] at ha; cases ha
        | some d => exact ⟨d, rfl⟩
      obtain ⟨d, hd⟩ := hc
      have hne := rev_letter c d hd
      have e1 : step evalV
          ({ key := k, keyLen := n, inKey := true, mapKeyLen := mk, dict } : DState C) c =
          .cont { key := k1, keyLen := n + 1, inKey := true, mapKeyLen := mk, dict } := by
        simp [step, stepMain, stepKey, hne, ha, show n + 1 < 256 by omega]
      have := Runs.cons e1 h2
      rw [show n + (t.length + 1) = n + 1 + t.length by omega]
      exact this

theorem formatKey_small (n k : Nat) (t : List Char) (h : formatKey n k = some t) :
    0 < n ∧ n < 256 := by
  unfold formatKey at h
  split at h
  · cases h
  · split at h
    · cases h
    · split at h
      · cases h
      · rename_i h2 h3
        refine ⟨by omega, ?_⟩
        by_contra hc
        have : 52 ^ 13 ≤ 52 ^ (n - 1) := Nat.pow_le_pow_right (by decide) (by omega)
        have : (2 : Nat) ^ 64 ≤ 52 ^ 13 := by decide
        omega

theorem runs_entry (n : Nat) (e : Nat × List (Prefab C)) (t : List Char) (mk : Nat) (af : Bool)
    (hmk : mk = 0 ∨ mk = n) (h16 : e.1 < 65536)
    (hne : e.2 ≠ []) (hf : ∀ f ∈ e.2, PrefabOk showV evalV f)
    (ht : entryText showV n e = some t) :
    Runs evalV (idleSt mk dict af) t (idleSt n (dictInsert e.1 e.2 dict) true) := by
  obtain ⟨k, fs⟩ := e
  unfold entryText at ht
  cases hk : formatKey n k with
  | none => rw [hk] at ht; simp at ht
  | some kt =>
    rw [hk] at ht
    simp only [Option.map_some, Option.some.injEq] at ht
    obtain ⟨hlen, hparse⟩ := key_roundtrip n k kt h16 hk
    have hn := formatKey_small n k kt hk
    have e1 : step evalV (idleSt mk dict af) '"' =
        .cont { key := 0, keyLen := 0, inKey := true, mapKeyLen := mk, dict } := by
      simp [step, idleSt, stepMain, stepTop]
    have h1 := runs_key (evalV := evalV) (dict := dict) kt 0 0 mk k hparse (by omega)
    rw [Nat.zero_add, hlen] at h1
    let s1 : DState C := { key := k, keyLen := n, mapKeyLen := n, dict }
    have e2 : step evalV
        ({ key := k, keyLen := n, inKey := true, mapKeyLen := mk, dict } : DState C) '"' =
        .cont s1 := by
      simp [step, stepMain, stepKey, hmk, s1]
    have e3 : step evalV s1 ' ' = .cont s1 := by simp [step, stepMain, stepTop, s1]
    have e4 : step evalV s1 '=' = .cont s1 := by simp [step, stepMain, stepTop, s1]
    have e5 : step evalV s1 '(' = .cont (dataSt n k dict [] ⟨[], []⟩ false []) := by
      simp [step, stepMain, stepTop, s1, dataSt]
    have e6 : step evalV (dataSt n k dict [] ⟨[], []⟩ false []) '\n' =
        .cont (dataSt n k dict [] ⟨[], []⟩ false []) := by
      simp [step, dataSt]
    have h2 := runs_fabs (evalV := evalV) (showV := showV) (kl := n) (key := k) (dict := dict)
      fs [] hne hf
    have := Runs.cons e1 (Runs.trans h1 (Runs.cons e2 (Runs.cons e3 (Runs.cons e4 (Runs.cons e3
      (Runs.cons e5 (Runs.cons e6 h2)))))))
    rw [← ht]
    simpa using this

theorem dictInsert_last {α : Type} (k : Nat) (v : α) (d : List (Nat × α))
    (h : ∀ p ∈ d, p.1 < k) : dictInsert k v d = d ++ [(k, v)] := by
  induction d with
  | nil => rfl
  | cons p d ih =>
    obtain ⟨k', v'⟩ := p
    have := h (k', v') (by simp)
    simp only at this
    simp [dictInsert, show ¬ k < k' by omega, show k ≠ k' by omega,
      ih fun p hp => h p (by simp [hp])]

theorem runs_entries (n : Nat) (es : List (Nat × List (Prefab C))) :
    ∀ (done : List (Nat × List (Prefab C))) (mk : Nat) (af : Bool) (t : List Char),
    (mk = 0 ∨ mk = n) → ((done ++ es).map Prod.fst).Pairwise (· < ·) →
    (∀ e ∈ es, e.1 < 65536) → (∀ e ∈ es, e.2 ≠ []) →
    (∀ e ∈ es, ∀ f ∈ e.2, PrefabOk showV evalV f) →
    catOpt (es.map (entryText showV n)) = some t →
    Runs evalV (idleSt mk done af) t
      (if es = [] then idleSt mk done af else idleSt n (done ++ es) true) := by
  induction es with
  | nil =>
    intro done mk af t _ _ _ _ _ ht
    simp [catOpt] at ht
    subst ht
    simpa using Runs.nil (evalV := evalV) _
  | cons e es ih =>
    intro done mk af t hmk hs h16 hne hf ht
    rw [List.map_cons] at ht
    cases he : entryText showV n e with
    | none => rw [he] at ht; simp [catOpt] at ht
    | some te =>
      rw [he] at ht
      simp only [catOpt] at ht
      cases hr : catOpt (es.map (entryText showV n)) with
      | none => rw [hr] at ht; simp at ht
      | some tr =>
        rw [hr] at ht
        simp only [Option.map_some, Option.some.injEq] at ht
        have h1 := runs_entry (evalV := evalV) (showV := showV) (dict := done) n e te mk af hmk
          (h16 e (by simp)) (hne e (by simp)) (hf e (by simp)) he
        rw [dictInsert_last] at h1
        · have h2 := ih (done ++ [e]) n true tr (Or.inr rfl) (by simpa using hs)
            (fun e he => h16 e (by simp [he])) (fun e he => hne e (by simp [he]))
            (fun e he => hf e (by simp [he])) hr
          have := Runs.trans h1 h2
          rw [ht] at this
          by_cases hes : es = []
          · subst hes; simpa using this
          · simpa [hes] using this
        · intro p hp
          rw [List.map_append, List.pairwise_append] at hs
          exact hs.2.2 p.1 (List.mem_map_of_mem hp) e.1 (by simp)

theorem runs_header (d : List (Nat × List (Prefab C))) (mk : Nat) (af : Bool) :
    Runs evalV (idleSt mk d af) header (idleSt mk d af) := by
  have e1 : step evalV (idleSt mk d af) '/' = .cont { idleSt mk d af with trig := true } := by
    simp [step, idleSt, stepMain, stepTop]
  have e2 : step evalV { idleSt mk d af with trig := true } '/' =
      .cont { idleSt mk d af with trig := true, inComment := true } := by
    simp [step, idleSt]
  have e3 : step evalV { idleSt mk d af with trig := true, inComment := true } '\n' =
      .cont (idleSt mk d af) := by
    simp [step, idleSt]
  have hc := runs_comment (evalV := evalV) { idleSt mk d af with trig := true, inComment := true } rfl
    "MAP CONVERTED BY dmm2tgm.py THIS HEADER COMMENT PREVENTS RECONVERSION, DO NOT REMOVE".toList
    (by decide)
  exact Runs.cons e1 (Runs.cons e2 (Runs.trans hc (Runs.one e3)))

end Verif.Dmm
