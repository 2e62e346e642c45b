import Verif.Server.DiagSpec

/-!
# C88: the client shows the diagnostics of the last send, for every schedule
-/

namespace Verif.Server

variable {U : Type} [DecidableEq U]

/-! ### The maps -/

theorem get_cons (v : U) (ds : List (Diagnostic U)) (m : DiagMap U) (u : U) :
    DiagMap.get ((v, ds) :: m) u = if v = u then ds else DiagMap.get m u := by
  unfold DiagMap.get
  by_cases h : v = u
  · rw [if_pos h, List.find?_cons_of_pos (p := fun e : U × List (Diagnostic U) => decide (e.1 = u)) (by simpa using h)]
    rfl
  · rw [if_neg h, List.find?_cons_of_neg (p := fun e : U × List (Diagnostic U) => decide (e.1 = u)) (by simpa using h)]

theorem get_nil (u : U) : DiagMap.get ([] : DiagMap U) u = [] := rfl

theorem get_of_not_mem {m : DiagMap U} {u : U} (h : u ∉ m.map Prod.fst) : m.get u = [] := by
  induction m with
  | nil => rfl
  | cons e m ih =>
    obtain ⟨v, ds⟩ := e
    simp only [List.map_cons, List.mem_cons, not_or] at h
    rw [get_cons, if_neg (Ne.symm h.1), ih h.2]

theorem get_of_mem {m : DiagMap U} {u : U} {ds : List (Diagnostic U)}
    (hn : (m.map Prod.fst).Nodup) (h : (u, ds) ∈ m) : m.get u = ds := by
  induction m with
  | nil => cases h
  | cons e m ih =>
    obtain ⟨v, ds'⟩ := e
    rw [List.map_cons, List.nodup_cons] at hn
    rw [get_cons]
    rcases List.mem_cons.1 h with h | h
    · cases h; rw [if_pos rfl]
    · have : v ≠ u := by
        rintro rfl
        exact hn.1 (List.mem_map.2 ⟨(v, ds), h, rfl⟩)
      rw [if_neg this, ih hn.2 h]

theorem push_get (m : DiagMap U) (u v : U) (d : Diagnostic U) :
    (m.push u d).get v = m.get v ++ if u = v then [d] else [] := by
  induction m with
  | nil => rw [DiagMap.push, get_cons, get_nil]; split <;> rfl
  | cons e m ih =>
    obtain ⟨w, ds⟩ := e
    rw [DiagMap.push]
    split
    · rename_i h
      subst h
      rw [get_cons, get_cons]
      by_cases h : w = v
      · rw [if_pos h, if_pos h, if_pos h]
      · rw [if_neg h, if_neg h, if_neg h, List.append_nil]
    · rename_i h
      rw [get_cons, get_cons, ih]
      by_cases h2 : w = v
      · subst h2
        rw [if_pos rfl, if_pos rfl, if_neg (Ne.symm h), List.append_nil]
      · rw [if_neg h2, if_neg h2]

theorem push_keys (m : DiagMap U) (u : U) (d : Diagnostic U) :
    (m.push u d).map Prod.fst = if u ∈ m.map Prod.fst then m.map Prod.fst else m.map Prod.fst ++ [u] := by
  induction m with
  | nil => rfl
  | cons e m ih =>
    obtain ⟨w, ds⟩ := e
    rw [DiagMap.push]
    split
    · rename_i h
      subst h
      simp
    · rename_i h
      rw [List.map_cons, ih, List.map_cons]
      by_cases h2 : u ∈ m.map Prod.fst
      · rw [if_pos h2, if_pos (List.mem_cons_of_mem _ h2)]
      · rw [if_neg h2, if_neg (by simpa [Ne.symm h] using h2)]
        rfl

theorem push_nodup {m : DiagMap U} (u : U) (d : Diagnostic U) (h : (m.map Prod.fst).Nodup) :
    ((m.push u d).map Prod.fst).Nodup := by
  rw [push_keys]
  split
  · exact h
  · rename_i hu
    rw [List.nodup_append]
    exact ⟨h, by simp, fun a ha b hb => by rw [List.mem_singleton.1 hb]; rintro rfl; exact hu ha⟩

theorem filterMap_eq_flatMap {α β : Type} (f : α → Option β) (l : List α) :
    l.filterMap f = l.flatMap (fun a => (f a).toList) := by
  induction l with
  | nil => rfl
  | cons a l ih =>
    rw [List.flatMap_cons, ← ih]
    cases h : f a with
    | none => rw [List.filterMap_cons_none h]; rfl
    | some b => rw [List.filterMap_cons_some h]; rfl

theorem pushNotes_get (url : Nat → Option U) (e : DMError) (v : U) (ns : List Note) :
    ∀ m : DiagMap U, (ns.foldl (pushNote url e) m).get v = m.get v ++
      (ns.filter (fun n => url n.loc.file = some v)).map (noteDiag e) := by
  induction ns with
  | nil => intro m; simp
  | cons n ns ih =>
    intro m
    rw [List.foldl_cons, ih]
    unfold pushNote
    cases h : url n.loc.file with
    | none =>
      rw [List.filter_cons_of_neg (by simp [h])]
    | some u =>
      simp only []
      rw [push_get]
      by_cases hu : u = v
      · rw [if_pos hu, List.filter_cons_of_pos (by simp [h, hu]), List.map_cons, List.append_assoc]
        rfl
      · rw [if_neg hu, List.append_nil, List.filter_cons_of_neg (by simp [h, hu])]

theorem pushError_get (url : Nat → Option U) (related : Bool) (m : DiagMap U) (e : DMError) (v : U) :
    (pushError url related m e).get v = m.get v ++ diagnosticsOf url related v e := by
  unfold pushError diagnosticsOf
  cases h : url e.loc.file with
  | none => simp
  | some u =>
    simp only [reduceCtorEq, if_false]
    have hmain : (if u = v then [mainDiag url related e] else []) =
        (if some u = some v then
          [{ message := e.text
             severity := e.severity
             range := (⟨e.loc.line - 1, e.loc.column - 1⟩, ⟨e.loc.line - 1, e.loc.column - 1⟩)
             source := e.component.getD "dm-langserver"
             code := e.code
             related := if related ∧ e.notes ≠ [] then
                some (e.notes.flatMap (fun n => (url n.loc.file).toList.map (fun uri =>
                  ⟨uri, (⟨n.loc.line - 1, n.loc.column - 1⟩, ⟨n.loc.line - 1, n.loc.column - 1⟩), n.text⟩)))
               else none : Diagnostic U }]
         else []) := by
      by_cases hu : u = v
      · rw [if_pos hu, if_pos (by rw [hu])]
        have : relatedInfo url related e = if related ∧ e.notes ≠ [] then
                some (e.notes.flatMap (fun n => (url n.loc.file).toList.map (fun uri =>
                  ⟨uri, (⟨n.loc.line - 1, n.loc.column - 1⟩, ⟨n.loc.line - 1, n.loc.column - 1⟩), n.text⟩)))
               else none := by
          unfold relatedInfo
          by_cases hr : related = true ∧ e.notes ≠ []
          · rw [if_pos hr, if_neg (by simp [hr.1, hr.2]), filterMap_eq_flatMap]
            congr 2
            funext n
            cases url n.loc.file <;> rfl
          · rw [if_neg hr, if_pos]
            cases related with
            | false => rfl
            | true =>
              have : e.notes = [] := Classical.byContradiction (fun hn => hr ⟨rfl, hn⟩)
              simp [this]
        unfold mainDiag
        rw [this]
        rfl
      · rw [if_neg hu, if_neg (fun hh => hu (Option.some.inj hh))]
    cases related with
    | true =>
      rw [if_neg (by simp), push_get, hmain]
      congr 1
      exact (List.append_nil _).symm
    | false =>
      rw [if_pos (by simp), pushNotes_get, push_get, hmain, List.append_assoc]
      rfl

theorem pushNotes_nodup (url : Nat → Option U) (e : DMError) (ns : List Note) :
    ∀ m : DiagMap U, (m.map Prod.fst).Nodup → ((ns.foldl (pushNote url e) m).map Prod.fst).Nodup := by
  induction ns with
  | nil => intro m h; exact h
  | cons n ns ih =>
    intro m h
    rw [List.foldl_cons]
    apply ih
    unfold pushNote
    split
    · exact h
    · exact push_nodup _ _ h

theorem pushError_nodup (url : Nat → Option U) (related : Bool) (m : DiagMap U) (e : DMError)
    (h : (m.map Prod.fst).Nodup) : ((pushError url related m e).map Prod.fst).Nodup := by
  unfold pushError
  split
  · exact h
  · split
    · exact pushNotes_nodup url e _ _ (push_nodup _ _ h)
    · exact push_nodup _ _ h

/-- **C88**: the map has for every document the diagnostics of the errors, in their order. -/
theorem build_get (url : Nat → Option U) (related : Bool) (errors : List DMError) (u : U) :
    (build url related errors).get u = errors.flatMap (diagnosticsOf url related u) := by
  have : ∀ m : DiagMap U, (errors.foldl (pushError url related) m).get u =
      m.get u ++ errors.flatMap (diagnosticsOf url related u) := by
    induction errors with
    | nil => intro m; simp
    | cons e es ih =>
      intro m
      rw [List.foldl_cons, ih, pushError_get, List.flatMap_cons, List.append_assoc]
  rw [build, this]
  rfl

/-- Every document is once in the map. -/
theorem build_nodup (url : Nat → Option U) (related : Bool) (errors : List DMError) :
    ((build url related errors).map Prod.fst).Nodup := by
  have : ∀ m : DiagMap U, (m.map Prod.fst).Nodup →
      ((errors.foldl (pushError url related) m).map Prod.fst).Nodup := by
    induction errors with
    | nil => intro m h; exact h
    | cons e es ih => intro m h; exact ih _ (pushError_nodup url related m e h)
  exact this [] List.nodup_nil

/-! ### What is shown -/

theorem shown_snoc (out : List (Publish U)) (p : Publish U) (u : U) :
    shown (out ++ [p]) u = if p.uri = u then p.diagnostics else shown out u := by
  unfold shown
  by_cases h : p.uri = u
  · rw [if_pos h, List.filter_append, List.filter_cons_of_pos (by simpa using h), List.filter_nil,
      List.getLast?_append]
    rfl
  · rw [if_neg h, List.filter_append, List.filter_cons_of_neg (by simpa using h), List.filter_nil,
      List.append_nil]

/-- Between sends: the tracker has the documents of the map, and the client shows the map. -/
def Shows (m : DiagMap U) (sent : List U) (out : List (Publish U)) : Prop :=
  sent = m.map Prod.fst ∧ ∀ u, shown out u = m.get u

/-- In the middle of sending a map. -/
def Midway (m : DiagMap U) (sent : List U) (out : List (Publish U)) : Sending U → Prop
  | .publishing todo new => ∃ past, m = past ++ todo ∧ new = past.map Prod.fst ∧ sent.Nodup ∧
      (∀ u ∈ sent, u ∉ new) ∧ (∀ u ∈ new, shown out u = m.get u) ∧
      (∀ u, u ∉ new → u ∉ sent → shown out u = [])
  | .erasing todo => sent = m.map Prod.fst ∧ (∀ u ∈ todo, u ∉ m.map Prod.fst) ∧
      ∀ u, u ∉ todo → shown out u = m.get u

theorem midway_start {m m' : DiagMap U} {sent : List U} {out : List (Publish U)}
    (h : Shows m' sent out) (hn : sent.Nodup) : Midway m sent out (.publishing m []) := by
  refine ⟨[], rfl, rfl, hn, by simp, by simp, ?_⟩
  intro u _ hu
  rw [h.2, get_of_not_mem]
  rwa [← h.1]

theorem midway_step {m : DiagMap U} {sent sent' : List U} {out ps : List (Publish U)}
    {pc pc' : Sending U} (hn : (m.map Prod.fst).Nodup) (h : Midway m sent out pc)
    (hs : SendStep sent pc sent' (some pc') ps) : Midway m sent' (out ++ ps) pc' := by
  cases hs with
  | publish u ds todo new =>
    obtain ⟨past, rfl, rfl, hd, h1, h2, h3⟩ := h
    have hu : u ∉ past.map Prod.fst := by
      rw [List.map_append, List.nodup_append] at hn
      intro hu
      exact hn.2.2 u hu u (by simp) rfl
    refine ⟨past ++ [(u, ds)], by simp, by simp, hd.erase u, ?_, ?_, ?_⟩
    · intro v hv hv2
      rcases List.mem_append.1 hv2 with hv2 | hv2
      · exact h1 v (List.mem_of_mem_erase hv) hv2
      · rw [List.mem_singleton.1 hv2] at hv
        exact hd.not_mem_erase hv
    · intro v hv
      rw [shown_snoc]
      by_cases huv : u = v
      · subst huv
        rw [if_pos rfl]
        exact (get_of_mem hn (by simp)).symm
      · rw [if_neg huv]
        rcases List.mem_append.1 hv with hv | hv
        · exact h2 v hv
        · exact absurd (List.mem_singleton.1 hv).symm huv
    · intro v hv hv2
      rw [List.mem_append, not_or] at hv
      have huv : u ≠ v := fun hh => hv.2 (by simp [hh])
      rw [shown_snoc, if_neg huv]
      refine h3 v hv.1 (fun hm => hv2 ?_)
      exact (List.mem_erase_of_ne (Ne.symm huv)).2 hm
  | swap new order hp =>
    obtain ⟨past, he, hnew, hd, h1, h2, h3⟩ := h
    rw [List.append_nil] at he
    subst he
    clear hn
    rw [List.append_nil]
    refine ⟨hnew, ?_, ?_⟩
    · intro u hu
      rw [← hnew]
      exact h1 u (hp.mem_iff.1 hu)
    · intro u hu
      by_cases hm : u ∈ sent'
      · exact h2 u hm
      · rw [h3 u hm (fun hs => hu (hp.mem_iff.2 hs)), get_of_not_mem]
        rwa [← hnew]
  | erase u todo =>
    obtain ⟨h1, h2, h3⟩ := h
    refine ⟨h1, fun v hv => h2 v (List.mem_cons_of_mem _ hv), ?_⟩
    intro v hv
    rw [shown_snoc]
    by_cases huv : u = v
    · subst huv
      rw [if_pos rfl, get_of_not_mem (h2 u List.mem_cons_self)]
    · rw [if_neg huv]
      refine h3 v ?_
      simp [Ne.symm huv, hv]

theorem midway_finish {m : DiagMap U} {sent sent' : List U} {out ps : List (Publish U)}
    {pc : Sending U} (h : Midway m sent out pc) (hs : SendStep sent pc sent' none ps) :
    Shows m sent' (out ++ ps) := by
  cases hs with
  | finish =>
    obtain ⟨h1, -, h3⟩ := h
    rw [List.append_nil]
    exact ⟨h1, fun u => h3 u (by simp)⟩

/-! ### The threads -/

/-- The map that was sent last. -/
def System.last (s : System U) : DiagMap U := (s.log.getLast?.map (fun e => e.2.2)).getD []

/-- What holds in every state. -/
structure Inv (s : System U) : Prop where
  /-- The maps are maps. -/
  lastNodup : (s.last.map Prod.fst).Nodup
  mainNodup : ∀ f g, s.main = .parsed f g ∨ s.main = .locked f g →
    (f.map Prod.fst).Nodup ∧ ∀ m, g = some m → (m.map Prod.fst).Nodup
  sendNodup : ∀ r f pc, s.main = .sending r f pc → (f.map Prod.fst).Nodup
  checkNodup : ∀ (i : Nat) (c : Checker U), s.checkers[i]? = some c → (c.map.map Prod.fst).Nodup
  /-- Who is in the critical section holds the lock. -/
  mainLock : ((∃ f g, s.main = .locked f g) ∨ ∃ r f pc, s.main = .sending r f pc) ↔
    s.lock = some .main
  checkLock : ∀ i : Nat, (∃ (c : Checker U) (pc : Sending U), s.checkers[i]? = some c ∧ c.pc = .sending pc) ↔
    s.lock = some (.checker i)
  /-- What is shown. -/
  calm : (s.lock = none ∨ ∃ f g, s.main = .locked f g) → Shows s.last s.sent s.out
  mainMid : ∀ r f pc, s.main = .sending r f pc → Midway f s.sent s.out pc
  checkMid : ∀ (i : Nat) (c : Checker U) pc, s.checkers[i]? = some c → c.pc = .sending pc → Midway c.map s.sent s.out pc
  /-- The main thread of a run goes first. -/
  mainFirst : ∀ (i : Nat) (c : Checker U), s.checkers[i]? = some c → (∃ f pc, s.main = .sending c.run f pc) ∨
    ∃ f, (c.run, false, f) ∈ s.log
  ordered : ∀ l r m, l ++ [(r, true, m)] <+: s.log → ∃ f, (r, false, f) ∈ l

theorem inv_init : Inv (System.init : System U) := by
  constructor <;> simp [System.init, System.last, Shows, shown, get_nil]

theorem getElem?_set' {α : Type} (l : List α) (i j : Nat) (a x : α) (ha : ∃ b, l[i]? = some b)
    (h : (l.set i a)[j]? = some x) : (j = i ∧ x = a) ∨ (j ≠ i ∧ l[j]? = some x) := by
  by_cases hij : i = j
  · subst hij
    obtain ⟨b, hb⟩ := ha
    rw [List.getElem?_set_self (List.getElem?_eq_some_iff.1 hb).1] at h
    exact .inl ⟨rfl, (Option.some.inj h).symm⟩
  · rw [List.getElem?_set_ne hij] at h
    exact .inr ⟨Ne.symm hij, h⟩

theorem prefix_snoc {α : Type} {l m : List α} {a b : α} (h : l ++ [a] <+: m ++ [b]) :
    (l ++ [a] <+: m) ∨ (l = m ∧ a = b) := by
  obtain ⟨t, ht⟩ := h
  rcases List.eq_nil_or_concat t with rfl | ⟨t', x, rfl⟩
  · rw [List.append_nil] at ht
    obtain ⟨h1, h2⟩ := List.append_inj' ht rfl
    exact .inr ⟨h1, List.singleton_inj.1 h2⟩
  · rw [List.concat_eq_append, ← List.append_assoc] at ht
    obtain ⟨h1, -⟩ := List.append_inj' ht rfl
    exact .inl ⟨t', h1⟩

theorem inv_step {s s' : System U} (iv : Inv s) (hs : SysStep s s') : Inv s' := by
  cases hs with
  | parse first second hm hf hg =>
    refine ⟨iv.lastNodup, ?_, nofun, iv.checkNodup, ?_, iv.checkLock, ?_, nofun, iv.checkMid, ?_,
      iv.ordered⟩
    · rintro f g (h | h)
      · cases h; exact ⟨hf, hg⟩
      · cases h
    · have h0 : s.lock ≠ some .main := by
        rw [Ne, ← iv.mainLock, hm]
        rintro (⟨_, _, h⟩ | ⟨_, _, _, h⟩) <;> cases h
      refine ⟨?_, fun h => absurd h h0⟩
      rintro (⟨_, _, h⟩ | ⟨_, _, _, h⟩) <;> cases h
    · rintro (h | ⟨_, _, h⟩)
      · exact iv.calm (.inl h)
      · cases h
    · intro i c hc
      rcases iv.mainFirst i c hc with ⟨f, pc, h⟩ | h
      · rw [hm] at h; cases h
      · exact .inr h
  | lock first second hm hl =>
    refine ⟨iv.lastNodup, ?_, nofun, iv.checkNodup, ?_, ?_, ?_, nofun, iv.checkMid, ?_, iv.ordered⟩
    · rintro f g (h | h)
      · cases h
      · cases h; exact iv.mainNodup _ _ (.inl hm)
    · exact ⟨fun _ => rfl, fun _ => .inl ⟨_, _, rfl⟩⟩
    · intro i
      have := iv.checkLock i
      rw [hl] at this
      refine ⟨fun h => ?_, nofun⟩
      exact absurd (this.1 h) nofun
    · intro _
      exact iv.calm (.inl hl)
    · intro i c hc
      rcases iv.mainFirst i c hc with ⟨f, pc, h⟩ | h
      · rw [hm] at h; cases h
      · exact .inr h
  | spawn first second hm =>
    have hlk : s.lock = some .main := iv.mainLock.1 (.inl ⟨_, _, hm⟩)
    have hsh := iv.calm (.inr ⟨_, _, hm⟩)
    have hch : ∀ (i : Nat) (c : Checker U),
        (s.checkers ++ (second.map (fun m => (⟨s.runs, m, .working⟩ : Checker U))).toList)[i]? = some c →
        s.checkers[i]? = some c ∨ (∃ m, second = some m ∧ c = ⟨s.runs, m, .working⟩) := by
      intro i c hc
      rw [List.getElem?_append] at hc
      split at hc
      · exact .inl hc
      · have := List.mem_of_getElem? hc
        cases second with
        | none => cases this
        | some m => exact .inr ⟨m, rfl, List.mem_singleton.1 this⟩
    have hno : ∀ (i : Nat) (c : Checker U) pc, s.checkers[i]? = some c → c.pc = .sending pc → False := by
      intro i c pc hc hp
      have := (iv.checkLock i).1 ⟨c, pc, hc, hp⟩
      rw [hlk] at this
      cases this
    refine ⟨iv.lastNodup, ?_, ?_, ?_, ?_, ?_, ?_, ?_, ?_, ?_, iv.ordered⟩
    · rintro f g (h | h) <;> cases h
    · intro r f pc h
      cases h
      exact (iv.mainNodup _ _ (.inr hm)).1
    · intro i c hc
      rcases hch i c hc with hc | ⟨m, hsec, rfl⟩
      · exact iv.checkNodup i c hc
      · exact (iv.mainNodup _ _ (.inr hm)).2 m hsec
    · exact ⟨fun _ => hlk, fun _ => .inr ⟨_, _, _, rfl⟩⟩
    · intro i
      constructor
      · rintro ⟨c, pc, hc, hp⟩
        rcases hch i c hc with hc | ⟨m, hsec, rfl⟩
        · exact (hno i c pc hc hp).elim
        · cases hp
      · intro h
        rw [show ({ s with
          main := MainPc.sending s.runs first (Sending.publishing first [])
          runs := s.runs + 1
          checkers := s.checkers ++ (second.map (fun m => (⟨s.runs, m, .working⟩ : Checker U))).toList
          } : System U).lock = s.lock from rfl, hlk] at h
        cases h
    · rintro (h | ⟨_, _, h⟩)
      · rw [show ({ s with
          main := MainPc.sending s.runs first (Sending.publishing first [])
          runs := s.runs + 1
          checkers := s.checkers ++ (second.map (fun m => (⟨s.runs, m, .working⟩ : Checker U))).toList
          } : System U).lock = s.lock from rfl, hlk] at h
        cases h
      · cases h
    · intro r f pc h
      cases h
      exact midway_start hsh (by rw [hsh.1]; exact iv.lastNodup)
    · intro i c pc hc hp
      rcases hch i c hc with hc | ⟨m, hsec, rfl⟩
      · exact (hno i c pc hc hp).elim
      · cases hp
    · intro i c hc
      rcases hch i c hc with hc | ⟨m, hsec, rfl⟩
      · rcases iv.mainFirst i c hc with ⟨f, pc, h⟩ | h
        · rw [hm] at h; cases h
        · exact .inr h
      · exact .inl ⟨_, _, rfl⟩
  | mainSend run first pc sent' pc' ps hm hss =>
    have hlk : s.lock = some .main := iv.mainLock.1 (.inr ⟨_, _, _, hm⟩)
    have hno : ∀ (i : Nat) (c : Checker U) pc, s.checkers[i]? = some c → c.pc = .sending pc → False := by
      intro i c pc hc hp
      have := (iv.checkLock i).1 ⟨c, pc, hc, hp⟩
      rw [hlk] at this
      cases this
    refine ⟨iv.lastNodup, ?_, ?_, iv.checkNodup, ?_, iv.checkLock, ?_, ?_, ?_, ?_, iv.ordered⟩
    · rintro f g (h | h) <;> cases h
    · intro r f pc h
      cases h
      exact iv.sendNodup _ _ _ hm
    · exact ⟨fun _ => hlk, fun _ => .inr ⟨_, _, _, rfl⟩⟩
    · rintro (h | ⟨_, _, h⟩)
      · cases hlk.symm.trans h
      · cases h
    · intro r f pc h
      cases h
      exact midway_step (iv.sendNodup _ _ _ hm) (iv.mainMid _ _ _ hm) hss
    · intro i c pc hc hp
      exact (hno i c pc hc hp).elim
    · intro i c hc
      rcases iv.mainFirst i c hc with ⟨f, pc, h⟩ | h
      · rw [hm] at h
        cases h
        exact .inl ⟨_, _, rfl⟩
      · exact .inr h
  | mainDone run first pc sent' ps hm hss =>
    have hlk : s.lock = some .main := iv.mainLock.1 (.inr ⟨_, _, _, hm⟩)
    have hno : ∀ (i : Nat) (c : Checker U) pc, s.checkers[i]? = some c → c.pc = .sending pc → False := by
      intro i c pc hc hp
      have := (iv.checkLock i).1 ⟨c, pc, hc, hp⟩
      rw [hlk] at this
      cases this
    have hlast : ({ s with
        sent := sent', main := MainPc.idle, lock := none, out := s.out ++ ps
        log := s.log ++ [(run, false, first)] } : System U).last = first := by simp [System.last]
    refine ⟨?_, ?_, nofun, iv.checkNodup, ?_, ?_, ?_, nofun, ?_, ?_, ?_⟩
    · rw [hlast]
      exact iv.sendNodup _ _ _ hm
    · rintro f g (h | h) <;> cases h
    · refine ⟨?_, nofun⟩
      rintro (⟨_, _, h⟩ | ⟨_, _, _, h⟩) <;> cases h
    · intro i
      refine ⟨?_, nofun⟩
      rintro ⟨c, pc, hc, hp⟩
      exact (hno i c pc hc hp).elim
    · intro _
      rw [hlast]
      exact midway_finish (iv.mainMid _ _ _ hm) hss
    · intro i c pc hc hp
      exact (hno i c pc hc hp).elim
    · intro i c hc
      rcases iv.mainFirst i c hc with ⟨f, pc, h⟩ | ⟨f, h⟩
      · rw [hm] at h
        cases h
        exact .inr ⟨first, by simp⟩
      · exact .inr ⟨f, List.mem_append_left _ h⟩
    · intro l r m hl
      rcases prefix_snoc hl with hl | ⟨rfl, h⟩
      · exact iv.ordered l r m hl
      · cases h
  | checkLock i c hc hp hl =>
    have hsh := iv.calm (.inl hl)
    have hno : ∀ (i : Nat) (c : Checker U) pc, s.checkers[i]? = some c → c.pc = .sending pc → False := by
      intro i c pc hc hp
      have := (iv.checkLock i).1 ⟨c, pc, hc, hp⟩
      rw [hl] at this
      cases this
    have hmn : ¬ ((∃ f g, s.main = .locked f g) ∨ ∃ r f pc, s.main = .sending r f pc) := by
      rw [iv.mainLock, hl]; nofun
    refine ⟨iv.lastNodup, iv.mainNodup, iv.sendNodup, ?_, ?_, ?_, ?_, ?_, ?_, ?_, iv.ordered⟩
    · intro j d hd
      rcases getElem?_set' _ _ _ _ _ ⟨c, hc⟩ hd with ⟨rfl, rfl⟩ | ⟨_, hd⟩
      · exact iv.checkNodup j c hc
      · exact iv.checkNodup j d hd
    · exact ⟨fun h => absurd h hmn, nofun⟩
    · intro j
      constructor
      · rintro ⟨d, pc, hd, hp'⟩
        rcases getElem?_set' _ _ _ _ _ ⟨c, hc⟩ hd with ⟨rfl, rfl⟩ | ⟨_, hd⟩
        · rfl
        · exact (hno j d pc hd hp').elim
      · intro h
        cases h
        exact ⟨_, _, List.getElem?_set_self (List.getElem?_eq_some_iff.1 hc).1, rfl⟩
    · rintro (h | ⟨f, g, h⟩)
      · cases h
      · exact absurd (.inl ⟨f, g, h⟩) hmn
    · intro r f pc h
      exact absurd (.inr ⟨r, f, pc, h⟩) hmn
    · intro j d pc hd hp'
      rcases getElem?_set' _ _ _ _ _ ⟨c, hc⟩ hd with ⟨rfl, rfl⟩ | ⟨_, hd⟩
      · cases hp'
        exact midway_start hsh (by rw [hsh.1]; exact iv.lastNodup)
      · exact (hno j d pc hd hp').elim
    · intro j d hd
      rcases getElem?_set' _ _ _ _ _ ⟨c, hc⟩ hd with ⟨rfl, rfl⟩ | ⟨_, hd⟩
      · exact iv.mainFirst j c hc
      · exact iv.mainFirst j d hd
  | checkSend i c pc sent' pc' ps hc hp hss =>
    have hlk : s.lock = some (.checker i) := (iv.checkLock i).1 ⟨c, pc, hc, hp⟩
    have hno : ∀ (j : Nat) (c : Checker U) pc, j ≠ i → s.checkers[j]? = some c → c.pc = .sending pc →
        False := by
      intro j c pc hj hc hp
      have := (iv.checkLock j).1 ⟨c, pc, hc, hp⟩
      rw [hlk] at this
      cases this
      exact hj rfl
    have hmn : ¬ ((∃ f g, s.main = .locked f g) ∨ ∃ r f pc, s.main = .sending r f pc) := by
      rw [iv.mainLock, hlk]; nofun
    refine ⟨iv.lastNodup, iv.mainNodup, iv.sendNodup, ?_, iv.mainLock, ?_, ?_, ?_, ?_, ?_, iv.ordered⟩
    · intro j d hd
      rcases getElem?_set' _ _ _ _ _ ⟨c, hc⟩ hd with ⟨rfl, rfl⟩ | ⟨_, hd⟩
      · exact iv.checkNodup j c hc
      · exact iv.checkNodup j d hd
    · intro j
      constructor
      · rintro ⟨d, pc, hd, hp'⟩
        rcases getElem?_set' _ _ _ _ _ ⟨c, hc⟩ hd with ⟨rfl, rfl⟩ | ⟨hj, hd⟩
        · exact hlk
        · exact (hno j d pc hj hd hp').elim
      · intro h
        cases hlk.symm.trans h
        exact ⟨_, _, List.getElem?_set_self (List.getElem?_eq_some_iff.1 hc).1, rfl⟩
    · rintro (h | ⟨f, g, h⟩)
      · cases hlk.symm.trans h
      · exact absurd (.inl ⟨f, g, h⟩) hmn
    · intro r f pc h
      exact absurd (.inr ⟨r, f, pc, h⟩) hmn
    · intro j d pc hd hp'
      rcases getElem?_set' _ _ _ _ _ ⟨c, hc⟩ hd with ⟨rfl, rfl⟩ | ⟨hj, hd⟩
      · cases hp'
        exact midway_step (iv.checkNodup j c hc) (iv.checkMid j c _ hc hp) hss
      · exact (hno j d pc hj hd hp').elim
    · intro j d hd
      rcases getElem?_set' _ _ _ _ _ ⟨c, hc⟩ hd with ⟨rfl, rfl⟩ | ⟨_, hd⟩
      · exact iv.mainFirst j c hc
      · exact iv.mainFirst j d hd
  | checkDone i c pc sent' ps hc hp hss =>
    have hlk : s.lock = some (.checker i) := (iv.checkLock i).1 ⟨c, pc, hc, hp⟩
    have hno : ∀ (j : Nat) (c : Checker U) pc, j ≠ i → s.checkers[j]? = some c → c.pc = .sending pc →
        False := by
      intro j c pc hj hc hp
      have := (iv.checkLock j).1 ⟨c, pc, hc, hp⟩
      rw [hlk] at this
      cases this
      exact hj rfl
    have hmn : ¬ ((∃ f g, s.main = .locked f g) ∨ ∃ r f pc, s.main = .sending r f pc) := by
      rw [iv.mainLock, hlk]; nofun
    have hlast : ({ s with
        sent := sent', lock := none, out := s.out ++ ps
        checkers := s.checkers.set i { c with pc := CheckPc.done }
        log := s.log ++ [(c.run, true, c.map)] } : System U).last = c.map := by simp [System.last]
    refine ⟨?_, iv.mainNodup, iv.sendNodup, ?_, ?_, ?_, ?_, ?_, ?_, ?_, ?_⟩
    · rw [hlast]
      exact iv.checkNodup i c hc
    · intro j d hd
      rcases getElem?_set' _ _ _ _ _ ⟨c, hc⟩ hd with ⟨rfl, rfl⟩ | ⟨_, hd⟩
      · exact iv.checkNodup j c hc
      · exact iv.checkNodup j d hd
    · exact ⟨fun h => absurd h hmn, nofun⟩
    · intro j
      refine ⟨?_, nofun⟩
      rintro ⟨d, pc, hd, hp'⟩
      rcases getElem?_set' _ _ _ _ _ ⟨c, hc⟩ hd with ⟨rfl, rfl⟩ | ⟨hj, hd⟩
      · cases hp'
      · exact (hno j d pc hj hd hp').elim
    · intro _
      rw [hlast]
      exact midway_finish (iv.checkMid i c _ hc hp) hss
    · intro r f pc h
      exact absurd (.inr ⟨r, f, pc, h⟩) hmn
    · intro j d pc hd hp'
      rcases getElem?_set' _ _ _ _ _ ⟨c, hc⟩ hd with ⟨rfl, rfl⟩ | ⟨hj, hd⟩
      · cases hp'
      · exact (hno j d pc hj hd hp').elim
    · intro j d hd
      have : (∃ f pc, s.main = .sending d.run f pc) ∨ ∃ f, (d.run, false, f) ∈ s.log := by
        rcases getElem?_set' _ _ _ _ _ ⟨c, hc⟩ hd with ⟨rfl, rfl⟩ | ⟨_, hd⟩
        · exact iv.mainFirst j c hc
        · exact iv.mainFirst j d hd
      rcases this with h | ⟨f, h⟩
      · exact .inl h
      · exact .inr ⟨f, List.mem_append_left _ h⟩
    · intro l r m hl
      rcases prefix_snoc hl with hl | ⟨rfl, h⟩
      · exact iv.ordered l r m hl
      · cases h
        rcases iv.mainFirst i c hc with ⟨f, pc, h⟩ | h
        · exact absurd (.inr ⟨_, f, pc, h⟩) hmn
        · exact h

theorem reach_inv {s : System U} (h : Reach s) : Inv s := by
  induction h with
  | init => exact inv_init
  | step _ hs ih => exact inv_step ih hs

/-! ### The main theorems -/

/-- **C88**: for every schedule, whenever nobody is sending, the client shows for every document exactly
what the map that was sent last has for it, and nothing for documents that it does not have. -/
theorem shown_last {s : System U} (h : Reach s) (hl : s.lock = none) (u : U) :
    shown s.out u = s.last.get u :=
  ((reach_inv h).calm (.inl hl)).2 u

/-- **C88**: only one thread sends at a time. -/
theorem one_sender {s : System U} (h : Reach s) :
    (∀ (i j : Nat) (c d : Checker U) p q, s.checkers[i]? = some c → s.checkers[j]? = some d → c.pc = .sending p →
      d.pc = .sending q → i = j) ∧
    ∀ (i : Nat) (c : Checker U) p r f q, s.checkers[i]? = some c → c.pc = .sending p → s.main ≠ .sending r f q := by
  have iv := reach_inv h
  constructor
  · intro i j c d p q hc hd hp hq
    have h1 := (iv.checkLock i).1 ⟨c, p, hc, hp⟩
    have h2 := (iv.checkLock j).1 ⟨d, q, hd, hq⟩
    cases h1.symm.trans h2
    rfl
  · intro i c p r f q hc hp hm
    have h1 := (iv.checkLock i).1 ⟨c, p, hc, hp⟩
    have h2 := iv.mainLock.1 (.inr ⟨r, f, q, hm⟩)
    cases h1.symm.trans h2

/-- **C88**: the findings of the parser are sent before those of the check of the same run, however fast
the check is. -/
theorem parser_first {s : System U} (h : Reach s) (l : List (Nat × Bool × DiagMap U)) (r : Nat)
    (m : DiagMap U) (hl : l ++ [(r, true, m)] <+: s.log) : ∃ f, (r, false, f) ∈ l :=
  (reach_inv h).ordered l r m hl

end Verif.Server
