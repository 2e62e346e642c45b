import Verif.Editor.RecentModel
import Verif.Editor.PlaceMap

/-!
# Theorems about recent environments (C114)
-/

namespace Verif.Editor.Recent

variable {P : Type} [DecidableEq P]

/-- The environment an argument stands for. -/
def Arg.env : Arg P → Option P
  | .dme p => some p
  | .dmm _ e => e
  | .other => none

/-- The map an argument stands for. -/
def Arg.map : Arg P → Option P
  | .dmm p _ => some p
  | _ => none

theorem eraseDups_cons_filter (p : P) (l : List P) :
    (p :: l).eraseDups = p :: l.eraseDups.filter (fun q => decide (q ≠ p)) := by
  rw [List.eraseDups_cons]
  congr 1
  induction l using List.reverseRecOn with
  | nil => rfl
  | append_singleton l a ih =>
    rw [List.filter_append]
    by_cases ha : a = p
    · subst ha
      simp only [List.filter_cons, beq_self_eq_true, Bool.not_true, List.filter_nil, List.append_nil,
        Bool.false_eq_true, if_false]
      rw [ih]
      by_cases hm : a ∈ l
      · rw [Place.eraseDups_old l a hm]
      · rw [Place.eraseDups_new l a hm, List.filter_append]; simp
    · have hf : List.filter (fun b => !b == p) [a] = [a] := by simp [ha]
      rw [hf]
      by_cases hm : a ∈ l
      · have : a ∈ List.filter (fun b => !b == p) l := by simp [hm, ha]
        rw [Place.eraseDups_old _ a this, Place.eraseDups_old l a hm, ih]
      · have : a ∉ List.filter (fun b => !b == p) l := by simp [hm]
        rw [Place.eraseDups_new _ a this, Place.eraseDups_new l a hm, ih, List.filter_append]
        simp [ha]

theorem makeRecent_erase (l : List P) (p : P) : makeRecent l.eraseDups p = (p :: l).eraseDups := by
  rw [eraseDups_cons_filter]
  unfold makeRecent
  split
  · rename_i h
    cases l with
    | nil => simp at h
    | cons a l =>
      rw [eraseDups_cons_filter] at h ⊢
      simp only [List.head?_cons, Option.some.injEq] at h
      subst h
      simp
  · rfl

theorem finish_eq (w : World P) (p : P) :
    finish w p = ⟨makeRecent w.recent p, .full (makeRecent w.recent p)⟩ := rfl

theorem foldl_recent (l : List P) (loads : List P) (d : Disk P) :
    (loads.foldl finish ⟨l.eraseDups, d⟩).recent = (loads.reverse ++ l).eraseDups := by
  induction loads generalizing l d with
  | nil => rfl
  | cons p ps ih =>
    rw [List.foldl_cons, finish_eq]
    simp only [makeRecent_erase]
    rw [ih]
    simp

theorem eraseDups_of_nodup {l : List P} (h : l.Nodup) : l.eraseDups = l := by
  induction l using List.reverseRecOn with
  | nil => rfl
  | append_singleton l a ih =>
    rw [List.nodup_append] at h
    rw [Place.eraseDups_new l a (fun hm => h.2.2 a hm a (by simp) rfl), ih h.1]

theorem foldl_load (w : World P) (h : w.disk.load = w.recent) (loads : List P) :
    (loads.foldl finish w).disk.load = (loads.foldl finish w).recent := by
  induction loads generalizing w with
  | nil => exact h
  | cons p ps ih => exact ih _ rfl

/-- **C114.** After any session with a list that has no entry twice, the next session finds what was loaded, the last first,
and behind it what was there before, each once. -/
theorem recent_exact (d : Disk P) (hd : d.load.Nodup) (loads : List P) :
    (session d loads).load = (loads.reverse ++ d.load).eraseDups := by
  unfold session
  rw [foldl_load _ rfl]
  conv_lhs => rw [boot, ← eraseDups_of_nodup hd]
  exact foldl_recent _ _ _

/-- **C114.** Over all sessions since the editor was installed, whatever the number of environments, the list is all that was
ever loaded, each once, the last first. -/
theorem sessions_exact (sessions : List (List P)) :
    (sessions.foldl session .absent).load = sessions.flatten.reverse.eraseDups := by
  suffices h : ∀ (d : Disk P) (before : List P), d.load = before.reverse.eraseDups →
      (sessions.foldl session d).load = (before ++ sessions.flatten).reverse.eraseDups by
    simpa using h .absent [] rfl
  induction sessions with
  | nil => intro d b h; simpa using h
  | cons s ss ih =>
    intro d b h
    rw [List.foldl_cons, List.flatten_cons, ← List.append_assoc]
    refine ih _ _ ?_
    unfold session
    rw [foldl_load _ rfl, boot, h, foldl_recent]
    simp

/-- **C114.** No entry is there twice, and none is ever lost. -/
theorem recent_once (sessions : List (List P)) :
    (sessions.foldl session .absent).load.Nodup ∧
    ∀ p, p ∈ (sessions.foldl session .absent).load ↔ ∃ s ∈ sessions, p ∈ s := by
  rw [sessions_exact]
  refine ⟨Place.nodup_eraseDups _, fun p => ?_⟩
  simp [List.mem_eraseDups]

/-- **C114.** Of two entries the one above was loaded again after the last time the other was: a later entry `q` is not
loaded any more after some load of `p`. -/
theorem recent_order (sessions : List (List P)) (p q : P) (above between below : List P)
    (h : (sessions.foldl session .absent).load = above ++ p :: between ++ q :: below) :
    ∃ before after, sessions.flatten = before ++ p :: after ∧ q ∈ before ∧ q ∉ after := by
  rw [sessions_exact] at h
  have key : ∀ (l : List P) (above between below : List P), l.eraseDups = above ++ p :: between ++ q :: below →
      ∃ a b, l = a ++ p :: b ∧ q ∈ b ∧ q ∉ a := by
    intro l
    induction l using List.reverseRecOn with
    | nil => intro a b c h; simp at h
    | append_singleton l x ih =>
      intro above between below h
      by_cases hx : x ∈ l
      · rw [Place.eraseDups_old l x hx] at h
        obtain ⟨a, b, e, h1, h2⟩ := ih _ _ _ h
        exact ⟨a, b ++ [x], by simp [e], by simp [h1], h2⟩
      · rw [Place.eraseDups_new l x hx] at h
        rcases List.eq_nil_or_concat below with rfl | ⟨bs, z, rfl⟩
        · have h' : l.eraseDups ++ [x] = (above ++ p :: between) ++ [q] := by simpa using h
          obtain ⟨e1, e2⟩ := List.append_inj' h' rfl
          simp only [List.cons.injEq, and_true] at e2
          subst e2
          have hp : p ∈ l := by rw [← List.mem_eraseDups, e1]; simp
          obtain ⟨a, b, rfl⟩ := List.append_of_mem hp
          exact ⟨a, b ++ [x], by simp, by simp, fun hm => hx (by simp [hm])⟩
        · have h' : l.eraseDups ++ [x] = (above ++ p :: between ++ q :: bs) ++ [z] := by simpa using h
          obtain ⟨e1, _⟩ := List.append_inj' h' rfl
          obtain ⟨a, b, e, h1, h2⟩ := ih _ _ _ e1
          exact ⟨a, b ++ [x], by simp [e], by simp [h1], h2⟩
  obtain ⟨a, b, e, h1, h2⟩ := key _ _ _ _ h
  refine ⟨b.reverse, a.reverse, ?_, by simpa using h1, by simpa using h2⟩
  have := congrArg List.reverse e
  simpa using this

/-- the arguments up to some point -/
theorem args_fold (args : List (Arg P)) :
    args.foldl argStep (⟨[], []⟩, false) =
      (⟨(args.findSome? Arg.env).toList, args.filterMap Arg.map⟩, (args.findSome? Arg.env).isSome) := by
  induction args using List.reverseRecOn with
  | nil => rfl
  | append_singleton l a ih =>
    rw [List.foldl_append, ih, List.foldl_cons, List.foldl_nil, List.findSome?_append, List.filterMap_append]
    cases h : l.findSome? Arg.env with
    | some e => cases a <;> simp [argStep, Arg.map]
    | none =>
      cases a with
      | dme p => simp [argStep, Arg.env, Arg.map]
      | dmm p e => cases e <;> simp [argStep, Arg.env, Arg.map]
      | other => simp [argStep, Arg.env, Arg.map]

/-- **C114.** At the start every map given is opened, in order, and one environment at most: the first given, be it itself or
by a map that belongs to one, and if there is none the one on top of the list. -/
theorem start_exact (recent : List P) (args : List (Arg P)) :
    (finishInit recent args).envs = ((args.findSome? Arg.env).or recent.head?).toList ∧
    (finishInit recent args).maps = args.filterMap Arg.map := by
  unfold finishInit
  rw [args_fold]
  cases h : args.findSome? Arg.env with
  | some e => simp
  | none => cases h' : recent.head? <;> simp [h']

/-- **C114.** Started without arguments that name an environment, the editor opens the last one loaded in any session
before. -/
theorem reopens_last (sessions : List (List P)) (args : List (Arg P)) (ha : ∀ a ∈ args, a.env = none) :
    (finishInit (boot (sessions.foldl session .absent)).recent args).envs = sessions.flatten.getLast?.toList := by
  rw [(start_exact _ _).1, List.findSome?_eq_none_iff.2 ha, boot, sessions_exact, Option.none_or,
    ← List.head?_reverse]
  cases sessions.flatten.reverse with
  | nil => rfl
  | cons a l => simp [List.eraseDups_cons]

/-- **C114.** The list after a crash while an environment is recorded, after `k` of the steps: what it was, nothing at all,
or what it was to become. -/
theorem crash_exact (d : Disk P) (loads : List P) (p : P) (k : Nat) :
    let w := ((finishSteps p).take k).foldl (fun w f => f w) (loads.foldl finish (boot d))
    w.disk.load = if k ≤ 1 then (session d loads).load
      else if k = 2 then [] else (session d (loads ++ [p])).load := by
  match k with
  | 0 => rfl
  | 1 => rfl
  | 2 => rfl
  | k + 3 =>
    have e : (finishSteps p).take (k + 3) = finishSteps p := List.take_of_length_le (by simp [finishSteps])
    simp only [e, session, List.foldl_append, List.foldl_cons, List.foldl_nil]
    simp [finish]

/-- **C114.** Recording the environment loaded last again changes neither the list nor the file. -/
theorem again_same (d : Disk P) (loads : List P) (p : P) :
    session d (loads ++ [p, p]) = session d (loads ++ [p]) := by
  unfold session
  rw [show loads ++ [p, p] = (loads ++ [p]) ++ [p] by simp, List.foldl_append (l' := [p]), List.foldl_append]
  simp only [List.foldl_cons, List.foldl_nil]
  generalize loads.foldl finish (boot d) = w
  rw [finish_eq, finish_eq]
  have : (makeRecent w.recent p).head? = some p := by
    unfold makeRecent; split
    · assumption
    · rfl
  have e : makeRecent (makeRecent w.recent p) p = makeRecent w.recent p := if_pos this
  simp only [e]

/-- **C114.** The menu shows the list numbered from one; if one entry is clicked it is loaded. -/
theorem menu_click (recent : List P) (i : Nat) :
    (menu recent)[i]? = (recent[i]?).map (fun p => (p, i + 1)) ∧
    menuClick recent (fun j => decide (j = i)) = recent[i]? ∧
    menuClick recent (fun _ => false) = none := by
  refine ⟨?_, ?_, ?_⟩
  · simp [menu, Nat.add_comm]
  · unfold menuClick
    induction recent using List.reverseRecOn with
    | nil => rfl
    | append_singleton l a ih =>
      rw [List.zipIdx_append, List.foldl_append, ih]
      simp only [List.zipIdx_cons, List.zipIdx_nil, List.foldl_cons, List.foldl_nil, Nat.zero_add, decide_eq_true_eq]
      by_cases h : l.length = i
      · subst h; simp
      · rw [if_neg h]
        rcases Nat.lt_or_ge i l.length with hlt | hge
        · rw [List.getElem?_append_left hlt]
        · rw [List.getElem?_eq_none hge, List.getElem?_eq_none]
          simp; omega
  · unfold menuClick
    have : ∀ (l : List (P × Nat)) (c : Option P),
        l.foldl (fun c e => if (fun _ => false) e.2 = true then some e.1 else c) c = c := by
      intro l; induction l with
      | nil => intro c; rfl
      | cons a l ih => intro c; simpa using ih c
    exact this _ _

/-- Disagreement: the file is emptied before it is written, so a crash or a power cut at that point loses all that was
recorded, however long the list was. -/
theorem crash_forgets (d : Disk P) (loads : List P) (p : P) :
    (((finishSteps p).take 2).foldl (fun w f => f w) (loads.foldl finish (boot d))).disk.load = [] := rfl

/-- Disagreement: entries that are twice in a file edited by hand stay twice as long as the first one is loaded. -/
theorem twice_stays (p q : P) : (session (.full [p, q, q]) [p]).load = [p, q, q] := by
  simp [session, boot, Disk.load, finish_eq, makeRecent]

/-- The hypotheses are met: three sessions of a real history, with an environment loaded again. -/
theorem sample :
    ([[1, 2], [], [3, 1, 1]].foldl session (.absent : Disk Nat)).load = [1, 3, 2] ∧
    (finishInit (boot ([[1, 2], [], [3, 1, 1]].foldl session (.absent : Disk Nat))).recent
      [.other, .dmm 7 none]).envs = [1] ∧
    (finishInit [1, 3, 2] [.other, .dmm 7 (some 5), .dme 6, .dmm 8 none]).envs = [5] := by
  decide

end Verif.Editor.Recent
