import Mathlib.Data.List.Basic

/-!
# The icon cache under any schedule of threads (C111): `crates/dmm-tools/src/icon_cache.rs`

Several threads draw maps at once and share the cache (`render-many`, minimap.rs:158).  The steps of a call are
those between which other threads can act: looking under the read lock, loading without a lock, inserting under
the write lock.
-/

namespace Verif.IconCache

/-- paths -/
abbrev Path := List Char

/-- where a call of `retrieve_shared` is (icon_cache.rs:33-52); `I` is a decoded icon file, `none` one that
cannot be read -/
inductive Phase (I : Type)
  | start
  | load
  | insert (r : Option I)
  | done (r : Option I)

/-- a call -/
structure Call (I : Type) where
  path : Path
  phase : Phase I

/-- The cache, the root that paths are relative to (icon_cache.rs:8-12), the files, the calls made so far and the
loads so far: which path under the root, and what it gave -/
structure St (I : Type) where
  map : Path → Option (Option I)
  root : Option Path
  disk : Path → Option I
  calls : List (Call I)
  loads : List (Path × Option I)

variable {I : Type}

/-- `root.join(path)` or `path` (icon_cache.rs:40-43); absolute paths are not given -/
def St.file (s : St I) (p : Path) : Path :=
  match s.root with
  | some root => root ++ '/' :: p
  | none => p

/-- what can happen -/
inductive Ev (I : Type)
  /-- a thread calls `retrieve_shared` -/
  | call (p : Path)
  /-- the next step of the `i`th call -/
  | step (i : Nat)
  /-- somebody changes the files -/
  | write (disk : Path → Option I)

/-- `map.insert` -/
def put (m : Path → Option (Option I)) (p : Path) (r : Option I) : Path → Option (Option I) :=
  fun q => if q = p then some r else m q

/-- one step of a call (icon_cache.rs:33-52) -/
def St.advance (s : St I) (i : Nat) (c : Call I) : St I :=
  match c.phase with
  | .start =>
    match s.map c.path with
    | some r => { s with calls := s.calls.set i { c with phase := .done r } }
    | none => { s with calls := s.calls.set i { c with phase := .load } }
  | .load =>
    let r := s.disk (s.file c.path)
    { s with calls := s.calls.set i { c with phase := .insert r }, loads := s.loads ++ [(s.file c.path, r)] }
  | .insert r => { s with calls := s.calls.set i { c with phase := .done r }, map := put s.map c.path r }
  | .done _ => s

/-- what happens -/
def St.on (s : St I) : Ev I → St I
  | .call p => { s with calls := s.calls ++ [{ path := p, phase := .start }] }
  | .step i =>
    match s.calls[i]? with
    | some c => s.advance i c
    | none => s
  | .write disk => { s with disk := disk }

/-- the cache as it is made (icon_cache.rs:8, main.rs:69-71 of dmm-tools-cli) -/
def St.new (root : Option Path) (disk : Path → Option I) : St I :=
  { map := fun _ => none, root := root, disk := disk, calls := [], loads := [] }

/-- `retrieve_uniq` (icon_cache.rs:15-31), which nobody can interrupt: the result and the cache -/
def uniq (map : Path → Option (Option I)) (load : Path → Option I) (p : Path) : Option I × (Path → Option (Option I)) :=
  match map p with
  | some r => (r, map)
  | none => (load p, put map p (load p))

/-- `set_icons_root` (icon_cache.rs:54-56) -/
def St.setRoot (s : St I) (root : Path) : St I := { s with root := some root }

/-! ## Theorems -/

theorem on_root (s : St I) (e : Ev I) : (s.on e).root = s.root := by
  cases e with
  | call p => rfl
  | write d => rfl
  | step i =>
    simp only [St.on]
    split
    · next c _ =>
      unfold St.advance
      split
      · split <;> rfl
      · rfl
      · rfl
      · rfl
    · rfl

theorem file_congr {s s' : St I} (h : s'.root = s.root) (p : Path) : s'.file p = s.file p := by
  unfold St.file
  rw [h]

/-- what a call has seen -/
def Seen (s : St I) (P : Path → Option I → Prop) : Prop :=
  (∀ p r, s.map p = some r → P (s.file p) r) ∧
  ∀ c ∈ s.calls, match c.phase with
    | .insert r => P (s.file c.path) r
    | .done r => P (s.file c.path) r
    | _ => True

theorem mem_set_or {α : Type} {l : List α} {i : Nat} {a b : α} (h : b ∈ l.set i a) : b ∈ l ∨ b = a :=
  List.mem_or_eq_of_mem_set h

theorem seen_on {s : St I} {P P' : Path → Option I → Prop} (h : Seen s P) (hmono : ∀ p r, P p r → P' p r)
    (e : Ev I) (hload : ∀ i, e = .step i → ∀ p, P' p (s.disk p) ∨ ∀ c, s.calls[i]? = some c → ¬(∃ q, s.file q = p ∧ c = ⟨q, .load⟩)) :
    Seen (s.on e) P' := by
  have hf : ∀ p, (s.on e).file p = s.file p := file_congr (on_root s e)
  unfold Seen
  simp only [hf]
  cases e with
  | write d =>
    refine ⟨fun p r hp => hmono _ _ (h.1 p r hp), fun c hc => ?_⟩
    have := h.2 c hc
    split <;> simp_all
  | call p =>
    refine ⟨fun p r hp => hmono _ _ (h.1 p r hp), fun c hc => ?_⟩
    simp only [St.on, List.mem_append, List.mem_singleton] at hc
    rcases hc with hc | rfl
    · have := h.2 c hc
      split <;> simp_all
    · trivial
  | step i =>
    simp only [St.on]
    cases hi : s.calls[i]? with
    | none =>
      refine ⟨fun p r hp => hmono _ _ (h.1 p r hp), fun c hc => ?_⟩
      have := h.2 c hc
      split <;> simp_all
    | some c0 =>
      have hmem : c0 ∈ s.calls := List.mem_of_getElem? hi
      have h0 := h.2 c0 hmem
      have others : ∀ c ∈ s.calls, match c.phase with
          | .insert r => P' (s.file c.path) r
          | .done r => P' (s.file c.path) r
          | _ => True := by
        intro c hc
        have := h.2 c hc
        split <;> simp_all
      simp only [St.advance]
      split
      · split
        · next r hr =>
          refine ⟨fun p r hp => hmono _ _ (h.1 p r hp), fun c hc => ?_⟩
          rcases mem_set_or hc with hc | rfl
          · exact others c hc
          · exact hmono _ _ (h.1 _ _ hr)
        · refine ⟨fun p r hp => hmono _ _ (h.1 p r hp), fun c hc => ?_⟩
          rcases mem_set_or hc with hc | rfl
          · exact others c hc
          · trivial
      · next hp0 =>
        refine ⟨fun p r hp => hmono _ _ (h.1 p r hp), fun c hc => ?_⟩
        rcases mem_set_or hc with hc | rfl
        · exact others c hc
        · rcases hload i rfl (s.file c0.path) with hl | hl
          · exact hl
          · exact absurd ⟨c0.path, rfl, by cases c0; simp_all⟩ (hl c0 hi)
      · next r hp0 =>
        rw [hp0] at h0
        refine ⟨fun p r' hp => ?_, fun c hc => ?_⟩
        · simp only [put] at hp
          split at hp
          · next e => injection hp with hp; subst hp; rw [e]; exact hmono _ _ h0
          · exact hmono _ _ (h.1 p r' hp)
        · rcases mem_set_or hc with hc | rfl
          · exact others c hc
          · exact hmono _ _ h0
      · exact ⟨fun p r hp => hmono _ _ (h.1 p r hp), others⟩

/-- **C111.** Whatever the schedule: as long as the files stay the same, every call that is done got exactly the icon
in its file below the root, or none if that cannot be read. -/
theorem retrieve_exact (root : Option Path) (disk : Path → Option I) (es : List (Ev I))
    (hsame : ∀ e ∈ es, ∀ d, e = .write d → d = disk) (c : Call I) (r : Option I)
    (hc : c ∈ (es.foldl St.on (St.new root disk)).calls) (hd : c.phase = .done r) :
    r = disk ((St.new root disk).file c.path) := by
  have key : ∀ (es : List (Ev I)) (s : St I), Seen s (fun p r => r = disk p) → s.disk = disk →
      (∀ e ∈ es, ∀ d, e = .write d → d = disk) →
      Seen (es.foldl St.on s) (fun p r => r = disk p) ∧ (es.foldl St.on s).root = s.root := by
    intro es
    induction es with
    | nil => intro s h _ _; exact ⟨h, rfl⟩
    | cons e es ih =>
      intro s h hdk hs
      have h1 : Seen (s.on e) (fun p r => r = disk p) := by
        refine seen_on h (fun _ _ x => x) e ?_
        intro i _ p
        exact .inl (by rw [hdk])
      have h2 : (s.on e).disk = disk := by
        cases e with
        | call p => exact hdk
        | write d => exact hs _ List.mem_cons_self d rfl
        | step i =>
          simp only [St.on]
          split
          · next c' _ =>
            unfold St.advance
            split
            · split <;> exact hdk
            · exact hdk
            · exact hdk
            · exact hdk
          · exact hdk
      have := ih (s.on e) h1 h2 (fun e he => hs e (List.mem_cons_of_mem _ he))
      exact ⟨this.1, this.2.trans (on_root s e)⟩
  have h := key es (St.new root disk) ⟨by simp [St.new], by simp [St.new]⟩ rfl hsame
  have := h.1.2 c hc
  rw [hd] at this
  rw [file_congr h.2] at this
  exact this

/-- **C111.** Even if the files change meanwhile, every call that is done got what some load of its file gave. -/
theorem retrieve_loaded (root : Option Path) (disk : Path → Option I) (es : List (Ev I)) (c : Call I) (r : Option I)
    (hc : c ∈ (es.foldl St.on (St.new root disk)).calls) (hd : c.phase = .done r) :
    ((St.new root disk).file c.path, r) ∈ (es.foldl St.on (St.new root disk)).loads := by
  have key : ∀ (es : List (Ev I)) (s : St I), Seen s (fun p r => (p, r) ∈ s.loads) →
      Seen (es.foldl St.on s) (fun p r => (p, r) ∈ (es.foldl St.on s).loads) ∧ (es.foldl St.on s).root = s.root := by
    intro es
    induction es with
    | nil => intro s h; exact ⟨h, rfl⟩
    | cons e es ih =>
      intro s h
      have h1 : Seen (s.on e) (fun p r => (p, r) ∈ (s.on e).loads) := by
        refine seen_on h ?_ e ?_
        · intro p r hm
          cases e with
          | call p => exact hm
          | write d => exact hm
          | step i =>
            simp only [St.on]
            split
            · next c' _ =>
              unfold St.advance
              split
              · split <;> exact hm
              · exact List.mem_append_left _ hm
              · exact hm
              · exact hm
            · exact hm
        · intro i he p
          by_cases hx : ∃ c, s.calls[i]? = some c ∧ ∃ q, s.file q = p ∧ c = ⟨q, .load⟩
          · obtain ⟨c, h1, q, h2, h3⟩ := hx
            left
            subst he
            simp only [St.on, h1]
            subst h3
            simp only [St.advance, h2]
            simp
          · right
            intro c hc' hq
            exact hx ⟨c, hc', hq⟩
      have := ih (s.on e) h1
      exact ⟨this.1, this.2.trans (on_root s e)⟩
  have h := key es (St.new root disk) ⟨by simp [St.new], by simp [St.new]⟩
  have := h.1.2 c hc
  rw [hd] at this
  rw [file_congr h.2] at this
  exact this

/-- a call that has found nothing in the cache and is not done yet -/
def Call.inFlight (c : Call I) : Prop :=
  match c.phase with
  | .load => True
  | .insert _ => True
  | _ => False

theorem file_inj (s : St I) {p q : Path} (h : s.file p = s.file q) : p = q := by
  unfold St.file at h
  split at h
  · have := List.append_cancel_left h
    injection this
  · exact h

/-- what stays true once `p` is in the cache; `n` calls were made before -/
structure Stays (s : St I) (p : Path) (r : Option I) (n : Nat) (f : Path) (ls : List (Path × Option I)) : Prop where
  map : s.map p = some r
  quiet : ∀ c ∈ s.calls, c.path = p → ¬c.inFlight
  file : s.file p = f
  len : n ≤ s.calls.length
  later : ∀ i c, n ≤ i → s.calls[i]? = some c → c.path = p → c.phase = .start ∨ c.phase = .done r
  loads : (s.loads.filter fun l => decide (l.1 = f)) = ls

theorem stays_on {s : St I} {p : Path} {r : Option I} {n : Nat} {f : Path} {ls : List (Path × Option I)}
    (h : Stays s p r n f ls) (e : Ev I) : Stays (s.on e) p r n f ls := by
  have hf : (s.on e).file p = f := (file_congr (on_root s e) p).trans h.file
  cases e with
  | write d => exact ⟨h.map, h.quiet, hf, h.len, h.later, h.loads⟩
  | call q =>
    refine ⟨h.map, ?_, hf, ?_, ?_, h.loads⟩
    · intro c hc hp
      simp only [St.on, List.mem_append, List.mem_singleton] at hc
      rcases hc with hc | rfl
      · exact h.quiet c hc hp
      · exact fun x => x
    · simp only [St.on, List.length_append]
      have := h.len
      omega
    · intro i c hi hc hp
      simp only [St.on] at hc
      rw [List.getElem?_append] at hc
      split at hc
      · exact h.later i c hi hc hp
      · rw [List.getElem?_singleton] at hc
        split at hc
        · injection hc with hc
          exact .inl (by rw [← hc])
        · cases hc
  | step i =>
    simp only [St.on] at hf ⊢
    cases hi : s.calls[i]? with
    | none =>
      simp only
      exact h
    | some c0 =>
      rw [hi] at hf
      simp only at hf ⊢
      have hmem : c0 ∈ s.calls := List.mem_of_getElem? hi
      have hlt : i < s.calls.length := (List.getElem?_eq_some_iff.1 hi).1
      -- replacing the call by one that is not in flight and, if it is a later one, is right
      have upd : ∀ (ph : Phase I), (c0.path = p → ¬(Call.inFlight ⟨c0.path, ph⟩)) →
          (n ≤ i → c0.path = p → ph = .start ∨ ph = .done r) →
          (∀ c ∈ s.calls.set i { c0 with phase := ph }, c.path = p → ¬c.inFlight) ∧
          n ≤ (s.calls.set i { c0 with phase := ph }).length ∧
          (∀ j c, n ≤ j → (s.calls.set i { c0 with phase := ph })[j]? = some c → c.path = p →
            c.phase = .start ∨ c.phase = .done r) := by
        intro ph h1 h2
        refine ⟨?_, by rw [List.length_set]; exact h.len, ?_⟩
        · intro c hc hp
          rcases mem_set_or hc with hc | rfl
          · exact h.quiet c hc hp
          · exact h1 hp
        · intro j c hj hc hp
          rw [List.getElem?_set] at hc
          split at hc
          · next e =>
            subst e
            injection hc with hc
            subst hc
            exact h2 hj hp
          · exact h.later j c hj hc hp
      unfold St.advance at hf ⊢
      split at hf
      · next hp0 =>
        split at hf
        · next r0 hr0 =>
          obtain ⟨a, b, c⟩ := upd (.done r0) (fun _ x => x) (fun _ hp => by
            rw [hp, h.map] at hr0
            injection hr0 with hr0
            exact .inr (by rw [hr0]))
          exact ⟨h.map, a, hf, b, c, h.loads⟩
        · next hr0 =>
          have hne : c0.path ≠ p := fun hp => by rw [hp, h.map] at hr0; cases hr0
          obtain ⟨a, b, c⟩ := upd .load (fun hp => absurd hp hne) (fun _ hp => absurd hp hne)
          exact ⟨h.map, a, hf, b, c, h.loads⟩
      · next hp0 =>
        have hne : c0.path ≠ p := fun hp => h.quiet c0 hmem hp (by unfold Call.inFlight; rw [hp0]; trivial)
        obtain ⟨a, b, c⟩ := upd (.insert (s.disk (s.file c0.path))) (fun hp => absurd hp hne) (fun _ hp => absurd hp hne)
        refine ⟨h.map, a, hf, b, c, ?_⟩
        simp only [List.filter_append]
        rw [h.loads, List.filter_cons, if_neg]
        · simp
        · simp only [decide_eq_true_eq]
          rw [← h.file]
          exact fun x => hne (file_inj s x)
      · next r0 hp0 =>
        have hne : c0.path ≠ p := fun hp => h.quiet c0 hmem hp (by unfold Call.inFlight; rw [hp0]; trivial)
        obtain ⟨a, b, c⟩ := upd (.done r0) (fun hp => absurd hp hne) (fun _ hp => absurd hp hne)
        refine ⟨?_, a, hf, b, c, h.loads⟩
        simp only [put]
        rw [if_neg (fun x => hne x.symm)]
        exact h.map
      · exact h

/-- **C111.** Once an icon is in the cache, or is known to be unreadable, and no call is still loading it, it stays as
it is: whatever happens then, it is never loaded again, and every later call gets the same. -/
theorem cached_stays (s : St I) (p : Path) (r : Option I) (hm : s.map p = some r)
    (hq : ∀ c ∈ s.calls, c.path = p → ¬c.inFlight) (es : List (Ev I)) :
    (es.foldl St.on s).map p = some r ∧
    (∀ i c, s.calls.length ≤ i → (es.foldl St.on s).calls[i]? = some c → c.path = p →
      ∀ r', c.phase = .done r' → r' = r) ∧
    ((es.foldl St.on s).loads.filter fun l => decide (l.1 = s.file p)) =
      s.loads.filter fun l => decide (l.1 = s.file p) := by
  have key : ∀ (es : List (Ev I)) (s' : St I) (ls : List (Path × Option I)),
      Stays s' p r s.calls.length (s.file p) ls → Stays (es.foldl St.on s') p r s.calls.length (s.file p) ls := by
    intro es
    induction es with
    | nil => intro s' ls h; exact h
    | cons e es ih => intro s' ls h; exact ih _ _ (stays_on h e)
  have h := key es s _ ⟨hm, hq, rfl, Nat.le_refl _, fun i c hi hc => by
    have := (List.getElem?_eq_some_iff.1 hc).1
    omega, rfl⟩
  refine ⟨h.map, ?_, h.loads⟩
  intro i c hi hc hp r' hr'
  rcases h.later i c hi hc hp with e | e
  · rw [e] at hr'; cases hr'
  · rw [e] at hr'
    injection hr' with hr'
    exact hr'.symm

/-- **C111.** What a call that is done looked for is in the cache from then on. -/
theorem done_cached (root : Option Path) (disk : Path → Option I) (es : List (Ev I)) (c : Call I) (r : Option I)
    (hc : c ∈ (es.foldl St.on (St.new root disk)).calls) (hd : c.phase = .done r) :
    ((es.foldl St.on (St.new root disk)).map c.path).isSome = true := by
  have key : ∀ (es : List (Ev I)) (s : St I), (∀ c ∈ s.calls, ∀ r, c.phase = .done r → (s.map c.path).isSome = true) →
      ∀ c ∈ (es.foldl St.on s).calls, ∀ r, c.phase = .done r → ((es.foldl St.on s).map c.path).isSome = true := by
    intro es
    induction es with
    | nil => intro s h; exact h
    | cons e es ih =>
      intro s h
      refine ih _ ?_
      cases e with
      | write d => exact h
      | call p =>
        intro c hc r hd
        simp only [St.on, List.mem_append, List.mem_singleton] at hc
        rcases hc with hc | rfl
        · exact h c hc r hd
        · cases hd
      | step i =>
        simp only [St.on]
        cases hi : s.calls[i]? with
        | none => exact h
        | some c0 =>
          simp only [St.advance]
          split
          · split
            · next r0 hr0 =>
              intro c hc r hd
              rcases mem_set_or hc with hc | rfl
              · exact h c hc r hd
              · simp only [hr0, Option.isSome_some]
            · intro c hc r hd
              rcases mem_set_or hc with hc | rfl
              · exact h c hc r hd
              · cases hd
          · intro c hc r hd
            rcases mem_set_or hc with hc | rfl
            · exact h c hc r hd
            · cases hd
          · intro c hc r hd
            simp only [put]
            split
            · rfl
            · next hne =>
              rcases mem_set_or hc with hc | rfl
              · exact h c hc r hd
              · exact absurd rfl hne
          · exact h
  exact key es _ (by simp [St.new]) c hc r hd

/-- **C111.** A call that is left alone takes at most three steps. -/
theorem call_ends (s : St I) (i : Nat) (c : Call I) (hc : s.calls[i]? = some c) :
    ∃ c' r, ((([.step i, .step i, .step i] : List (Ev I)).foldl St.on s).calls[i]?) = some c' ∧
      c'.path = c.path ∧ c'.phase = .done r := by
  have hlt : i < s.calls.length := (List.getElem?_eq_some_iff.1 hc).1
  obtain ⟨p, ph⟩ := c
  have fin : ∀ (s : St I) (r : Option I), s.calls[i]? = some ⟨p, .done r⟩ → (s.on (.step i)).calls[i]? = some ⟨p, .done r⟩ := by
    intro s r h
    simp only [St.on, h, St.advance]
  have ins : ∀ (s : St I) (r : Option I), s.calls[i]? = some ⟨p, .insert r⟩ → (s.on (.step i)).calls[i]? = some ⟨p, .done r⟩ := by
    intro s r h
    have hl : i < s.calls.length := (List.getElem?_eq_some_iff.1 h).1
    simp only [St.on, h, St.advance]
    rw [List.getElem?_set_self hl]
  have ld : ∀ (s : St I), s.calls[i]? = some ⟨p, .load⟩ →
      (s.on (.step i)).calls[i]? = some ⟨p, .insert (s.disk (s.file p))⟩ := by
    intro s h
    have hl : i < s.calls.length := (List.getElem?_eq_some_iff.1 h).1
    simp only [St.on, h, St.advance]
    rw [List.getElem?_set_self hl]
  simp only [List.foldl_cons, List.foldl_nil]
  cases ph with
  | done r => exact ⟨_, r, fin _ r (fin _ r (fin _ r hc)), rfl, rfl⟩
  | insert r => exact ⟨_, r, fin _ r (fin _ r (ins _ r hc)), rfl, rfl⟩
  | load => exact ⟨_, _, fin _ _ (ins _ _ (ld _ hc)), rfl, rfl⟩
  | start =>
    cases hm : s.map p with
    | some r =>
      have h1 : (s.on (.step i)).calls[i]? = some ⟨p, .done r⟩ := by
        simp only [St.on, hc, St.advance, hm]
        rw [List.getElem?_set_self hlt]
      exact ⟨_, r, fin _ r (fin _ r h1), rfl, rfl⟩
    | none =>
      have h1 : (s.on (.step i)).calls[i]? = some ⟨p, .load⟩ := by
        simp only [St.on, hc, St.advance, hm]
        rw [List.getElem?_set_self hlt]
      exact ⟨_, _, ins _ _ (ld _ h1), rfl, rfl⟩

/-- **C111.** `retrieve_uniq` does the same as a call that nobody interrupts. -/
theorem uniq_same (s : St I) (p : Path) :
    let s' := ([.call p, .step s.calls.length, .step s.calls.length, .step s.calls.length] : List (Ev I)).foldl St.on s
    s'.map = (uniq s.map (fun q => s.disk (s.file q)) p).2 ∧
    s'.calls = s.calls ++ [⟨p, .done (uniq s.map (fun q => s.disk (s.file q)) p).1⟩] := by
  have hset : ∀ (l : List (Call I)) (a b : Call I), (l ++ [a]).set l.length b = l ++ [b] := by
    intro l a b
    rw [List.set_append_right _ _ (Nat.le_refl _)]
    simp
  unfold uniq
  cases hm : s.map p with
  | some r => simp [St.on, St.advance, hm]
  | none => simp [St.on, St.advance, hm, St.file]

/-! ## Examples and disagreements -/

section Examples

def lampDmi : Path := "icons/lamp.dmi".toList

def files : Path → Option Nat := fun p => if p = "/game/icons/lamp.dmi".toList then some 1 else none

def start : St Nat := St.new (some "/game".toList) files

/-- two threads at once: both get the icon (it is loaded twice) -/
def race : List (Ev Nat) := [.call lampDmi, .call lampDmi, .step 0, .step 1, .step 0, .step 1, .step 1, .step 0]

/-- the result of a call -/
def Call.result (c : Call Nat) : Option (Option Nat) :=
  match c.phase with
  | .done r => some r
  | _ => none

example : (race.foldl St.on start).calls.map Call.result = [some (some 1), some (some 1)] ∧
    (race.foldl St.on start).loads.length = 2 ∧ (race.foldl St.on start).map lampDmi = some (some 1) := by
  decide +kernel

/-- **Disagreement.** If the file changes while two threads load it, they draw different icons
(icon_cache.rs:34-50: the one that is second does not look again) -/
theorem race_two_icons :
    (([.call lampDmi, .call lampDmi, .step 0, .step 1, .step 0, .write (fun _ => some 2), .step 1, .step 0,
      .step 1].foldl St.on start).calls.map Call.result) = [some (some 1), some (some 2)] := by
  decide +kernel

/-- **Disagreement.** A file that could not be read is not looked at again, even after it was put there -/
theorem failure_remembered :
    (([.call "icons/new.dmi".toList, .step 0, .step 0, .step 0, .write (fun _ => some 2),
      .call "icons/new.dmi".toList, .step 1].foldl St.on start).calls.map Call.result) = [some none, some none] := by
  decide +kernel

/-- **Disagreement.** Icons loaded before the root is set are not loaded again from below it -/
theorem old_root_kept :
    (([.call lampDmi, .step 1].foldl St.on (([.call lampDmi, .step 0, .step 0, .step 0].foldl St.on
      (St.new none files)).setRoot "/game".toList)).calls.map Call.result) = [some none, some none] := by
  decide +kernel

end Examples

end Verif.IconCache
