import Verif.Editor.MapRepr

/-! # Draw calls tile the sorted instances -/

namespace Verif.Editor

/-- the texture of each sorted instance according to a list of draw calls: `len / 6` instances per call -/
def expand (ds : List Draw) : List Nat := ds.flatMap fun d => List.replicate (d.len / 6) d.texture

/-- every draw call draws a positive whole number of instances (6 indices each) -/
def DrawsOk (ds : List Draw) : Prop := ∀ d ∈ ds, 0 < d.len ∧ 6 ∣ d.len

def lens (ds : List Draw) : Nat := (ds.map Draw.len).sum

theorem expand_append (a b : List Draw) : expand (a ++ b) = expand a ++ expand b := by
  simp [expand]

theorem expand_cons (d : Draw) (b : List Draw) :
    expand (d :: b) = List.replicate (d.len / 6) d.texture ++ expand b := by simp [expand]

theorem expand_nil : expand [] = [] := rfl

theorem lens_eq {ds : List Draw} (h : DrawsOk ds) : lens ds = 6 * (expand ds).length := by
  induction ds with
  | nil => rfl
  | cons d ds ih =>
    have h1 := h d (by simp)
    have := ih (fun d hd => h d (by simp [hd]))
    unfold lens at this ⊢
    rw [List.map_cons, List.sum_cons, this, expand_cons, List.length_append, List.length_replicate]
    omega

theorem findDraw_spec (ds : List Draw) (pos i start : Nat) (h : start ≤ pos) :
    ∃ a b, ds = a ++ b ∧ findDraw ds pos i start = (i + a.length, start + lens a) ∧
      start + lens a ≤ pos ∧ (∀ d b', b = d :: b' → pos < start + lens a + d.len) := by
  induction ds generalizing i start with
  | nil => exact ⟨[], [], rfl, by simp [findDraw, lens], by simp [lens, h], by simp⟩
  | cons d ds ih =>
    simp only [findDraw]
    by_cases hc : pos < start + d.len
    · rw [if_pos ⟨h, hc⟩]
      refine ⟨[], d :: ds, rfl, by simp [lens], by simp [lens, h], ?_⟩
      intro d' b' e
      injection e with e1 _
      subst e1
      simpa [lens] using hc
    · rw [if_neg (by omega)]
      obtain ⟨a, b, e1, e2, e3, e4⟩ := ih (i + 1) (start + d.len) (by omega)
      refine ⟨d :: a, b, by rw [e1]; rfl, ?_, ?_, ?_⟩
      · rw [e2]; simp [lens]; omega
      · simp [lens] at e3 ⊢; omega
      · intro d' b' e
        have := e4 d' b' e
        simp [lens] at this ⊢; omega

theorem setLen_append (a : List Draw) (d : Draw) (b : List Draw) (n : Nat) :
    setLen (a ++ d :: b) a.length n = a ++ ⟨d.texture, n⟩ :: b := by
  unfold setLen
  induction a with
  | nil => rfl
  | cons x a ih => simp only [List.cons_append, List.length_cons, List.modify_succ_cons, ih]

theorem vecInsert_append {α : Type} (a b : List α) (x : α) :
    vecInsert (a ++ b) a.length x = some (a ++ x :: b) := by
  unfold vecInsert
  rw [if_pos (by simp)]
  simp

theorem vecRemove_append {α : Type} (a b : List α) (x : α) :
    vecRemove (a ++ x :: b) a.length = some (a ++ b) := by
  unfold vecRemove
  rw [if_pos (by simp)]
  simp

theorem drawsOk_append {a b : List Draw} : DrawsOk (a ++ b) ↔ DrawsOk a ∧ DrawsOk b := by
  unfold DrawsOk
  constructor
  · intro h
    exact ⟨fun d hd => h d (by simp [hd]), fun d hd => h d (by simp [hd])⟩
  · rintro ⟨h1, h2⟩ d hd
    rcases List.mem_append.1 hd with hd | hd
    · exact h1 d hd
    · exact h2 d hd

theorem drawsOk_cons {d : Draw} {b : List Draw} :
    DrawsOk (d :: b) ↔ (0 < d.len ∧ 6 ∣ d.len) ∧ DrawsOk b := by
  unfold DrawsOk
  simp only [List.mem_cons, forall_eq_or_imp]

theorem replicate_insert (n m : Nat) (t : Nat) (l : List Nat) :
    List.replicate n t ++ (t :: (List.replicate m t ++ l)) = List.replicate (n + m + 1) t ++ l := by
  rw [show n + m + 1 = n + (m + 1) by omega, List.replicate_add, List.append_assoc]
  rfl

/-- Adding an instance at position `k` inserts its texture there in what the draw calls draw. -/
theorem addDraw_spec {ds : List Draw} (hok : DrawsOk ds) {k : Nat} (hk : k ≤ (expand ds).length)
    (t : Nat) :
    ∃ ds', addDraw ds (6 * k) t = some ds' ∧ DrawsOk ds' ∧
      expand ds' = (expand ds).take k ++ t :: (expand ds).drop k := by
  obtain ⟨a, b, e1, e2, e3, e4⟩ := findDraw_spec ds (6 * k) 0 0 (by omega)
  subst e1
  obtain ⟨oka, okb⟩ := drawsOk_append.1 hok
  have la := lens_eq oka
  simp only [Nat.zero_add] at e2 e3 e4
  unfold addDraw
  simp only [e2]
  by_cases hpos : 6 * k = lens a
  · have hka : k = (expand a).length := by omega
    rw [if_pos hpos, expand_append, hka, List.take_left, List.drop_left]
    by_cases hl : 0 < a.length ∧ (((a ++ b)[a.length - 1]?).any fun d => decide (d.texture = t)) = true
    · rw [if_pos hl]
      obtain ⟨a', d, ea⟩ : ∃ a' d, a = a' ++ [d] := by
        rcases List.eq_nil_or_concat a with h | ⟨a', d, h⟩
        · rw [h] at hl; simp at hl
        · exact ⟨a', d, by rw [h, List.concat_eq_append]⟩
      subst ea
      have hl1 : (a' ++ [d]).length - 1 = a'.length := by simp
      have hg : ((a' ++ [d]) ++ b)[(a' ++ [d]).length - 1]? = some d := by rw [hl1]; simp
      rw [hg] at hl ⊢
      have ht : d.texture = t := by simpa using hl.2
      obtain ⟨oka', okd⟩ := drawsOk_append.1 oka
      have okd' := okd d (by simp)
      refine ⟨a' ++ ⟨d.texture, d.len + 6⟩ :: b, ?_, ?_, ?_⟩
      · rw [hl1, List.append_assoc, List.singleton_append, Option.map_some, setLen_append]
      · rw [drawsOk_append, drawsOk_cons]
        exact ⟨oka', ⟨by simp, by simp only; omega⟩, okb⟩
      · rw [expand_append, expand_cons, expand_append, expand_cons, expand_nil]
        simp only [List.append_assoc, List.append_nil, ht]
        rw [show (d.len + 6) / 6 = d.len / 6 + 0 + 1 by omega, ← replicate_insert _ 0]
        rfl
    · rw [if_neg hl]
      by_cases hr : a.length < (a ++ b).length ∧ (((a ++ b)[a.length]?).any fun d => decide (d.texture = t)) = true
      · rw [if_pos hr]
        cases b with
        | nil => simp at hr
        | cons d b' =>
          have hg : (a ++ d :: b')[a.length]? = some d := by simp
          rw [hg] at hr ⊢
          have ht : d.texture = t := by simpa using hr.2
          obtain ⟨okd, okb'⟩ := drawsOk_cons.1 okb
          refine ⟨a ++ ⟨d.texture, d.len + 6⟩ :: b', ?_, ?_, ?_⟩
          · rw [Option.map_some, setLen_append]
          · rw [drawsOk_append, drawsOk_cons]
            exact ⟨oka, ⟨by simp, by simp only; omega⟩, okb'⟩
          · rw [expand_append, expand_cons, expand_cons]
            simp only [ht]
            rw [show (d.len + 6) / 6 = 0 + d.len / 6 + 1 by omega, ← replicate_insert]
            rfl
      · rw [if_neg hr, vecInsert_append]
        refine ⟨_, rfl, ?_, ?_⟩
        · rw [drawsOk_append, drawsOk_cons]
          exact ⟨oka, ⟨by simp, by simp⟩, okb⟩
        · rw [expand_append, expand_cons]
          simp
  · rw [if_neg hpos]
    cases b with
    | nil =>
      rw [List.append_nil] at hk
      omega
    | cons d b' =>
      have hlt := e4 d b' rfl
      obtain ⟨okd, okb'⟩ := drawsOk_cons.1 okb
      have hg : (a ++ d :: b')[a.length]? = some d := by simp
      rw [hg]
      simp only
      -- the position inside the call
      obtain ⟨j, hj⟩ : ∃ j, k = (expand a).length + j := ⟨k - (expand a).length, by omega⟩
      have hjd : 0 < j ∧ j < d.len / 6 := by omega
      have hexp : (expand (a ++ d :: b')).take k ++ t :: (expand (a ++ d :: b')).drop k
          = expand a ++ (List.replicate j d.texture ++ (t :: (List.replicate (d.len / 6 - j) d.texture ++ expand b'))) := by
        rw [expand_append, expand_cons, hj, List.take_length_add_append, List.drop_length_add_append]
        rw [List.take_append_of_le_length (by simp; omega), List.drop_append_of_le_length (by simp; omega)]
        rw [List.take_replicate, List.drop_replicate, Nat.min_eq_left (by omega)]
        simp
      rw [hexp]
      by_cases ht : d.texture = t
      · rw [if_pos ht, setLen_append]
        refine ⟨_, rfl, ?_, ?_⟩
        · rw [drawsOk_append, drawsOk_cons]
          exact ⟨oka, ⟨by simp, by simp only; omega⟩, okb'⟩
        · rw [expand_append, expand_cons]
          simp only [ht]
          rw [replicate_insert]
          congr 3
          omega
      · rw [if_neg ht, if_pos (by omega), setLen_append, vecInsert_append]
        simp only [Option.bind_some]
        rw [vecInsert_append]
        refine ⟨_, rfl, ?_, ?_⟩
        · rw [drawsOk_append, drawsOk_cons, drawsOk_cons, drawsOk_cons]
          refine ⟨oka, ⟨?_, ?_⟩, ⟨by simp, by simp⟩, ⟨?_, ?_⟩, okb'⟩ <;> simp only <;> omega
        · rw [expand_append, expand_cons, expand_cons, expand_cons]
          simp only
          rw [show (6 * k - lens a) / 6 = j by omega, show (d.len - (6 * k - lens a)) / 6 = d.len / 6 - j by omega]
          rfl

/-- Removing the instance at position `k` removes its texture. -/
theorem removeDraw_spec {ds : List Draw} (hok : DrawsOk ds) {k : Nat} (hk : k < (expand ds).length) :
    ∃ ds', removeDraw ds (6 * k) = some ds' ∧ DrawsOk ds' ∧
      expand ds' = (expand ds).take k ++ (expand ds).drop (k + 1) := by
  obtain ⟨a, b, e1, e2, e3, e4⟩ := findDraw_spec ds (6 * k) 0 0 (by omega)
  subst e1
  obtain ⟨oka, okb⟩ := drawsOk_append.1 hok
  have la := lens_eq oka
  simp only [Nat.zero_add] at e2 e3 e4
  unfold removeDraw
  simp only [e2]
  cases b with
  | nil => rw [List.append_nil] at hk; omega
  | cons d b' =>
    have hlt := e4 d b' rfl
    obtain ⟨okd, okb'⟩ := drawsOk_cons.1 okb
    have hg : (a ++ d :: b')[a.length]? = some d := by simp
    rw [hg]
    simp only
    obtain ⟨j, hj⟩ : ∃ j, k = (expand a).length + j := ⟨k - (expand a).length, by omega⟩
    have hjd : j < d.len / 6 := by omega
    have hexp : (expand (a ++ d :: b')).take k ++ (expand (a ++ d :: b')).drop (k + 1)
        = expand a ++ (List.replicate (d.len / 6 - 1) d.texture ++ expand b') := by
      rw [expand_append, expand_cons, hj, List.take_length_add_append, Nat.add_assoc, List.drop_length_add_append]
      rw [List.take_append_of_le_length (by simp; omega), List.drop_append_of_le_length (by simp; omega)]
      rw [List.take_replicate, List.drop_replicate, Nat.min_eq_left (by omega)]
      rw [List.append_assoc, ← List.append_assoc (List.replicate j _), ← List.replicate_add]
      congr 3
      omega
    rw [hexp, if_neg (by omega)]
    by_cases h0 : d.len - 6 = 0
    · rw [if_pos h0, vecRemove_append]
      refine ⟨_, rfl, drawsOk_append.2 ⟨oka, okb'⟩, ?_⟩
      rw [expand_append, show d.len / 6 - 1 = 0 by omega]
      rfl
    · rw [if_neg h0, setLen_append]
      refine ⟨_, rfl, ?_, ?_⟩
      · rw [drawsOk_append, drawsOk_cons]
        refine ⟨oka, ⟨?_, ?_⟩, okb'⟩ <;> simp only <;> omega
      · rw [expand_append, expand_cons]
        simp only
        rw [show (d.len - 6) / 6 = d.len / 6 - 1 by omega]

theorem drawLoop_spec (ts : List Nat) (acc : List Draw) (h : DrawsOk acc) :
    DrawsOk (drawLoop acc ts) ∧ expand (drawLoop acc ts) = expand acc.reverse ++ ts := by
  induction ts generalizing acc with
  | nil => simp only [drawLoop, List.append_nil, and_true]; intro d hd; exact h d (by simpa using hd)
  | cons t ts ih =>
    cases acc with
    | nil =>
      simp only [drawLoop]
      obtain ⟨h1, h2⟩ := ih [⟨t, 6⟩] (by intro d hd; simp at hd; subst hd; simp)
      exact ⟨h1, by rw [h2]; simp [expand]⟩
    | cons d acc =>
      obtain ⟨okd, oka⟩ := drawsOk_cons.1 h
      simp only [drawLoop]
      split
      · next ht =>
        obtain ⟨h1, h2⟩ := ih (⟨d.texture, d.len + 6⟩ :: acc)
          (by rw [drawsOk_cons]; exact ⟨⟨by simp, by simp only; omega⟩, oka⟩)
        refine ⟨h1, ?_⟩
        rw [h2, List.reverse_cons, List.reverse_cons, expand_append, expand_append, expand_cons, expand_cons,
          expand_nil]
        simp only [List.append_nil, List.append_assoc, ht]
        rw [show (d.len + 6) / 6 = d.len / 6 + 0 + 1 by omega, ← replicate_insert _ 0]
        rfl
      · obtain ⟨h1, h2⟩ := ih (⟨t, 6⟩ :: d :: acc) (by rw [drawsOk_cons]; exact ⟨⟨by simp, by simp⟩, h⟩)
        refine ⟨h1, ?_⟩
        rw [h2, List.reverse_cons, expand_append, expand_cons, expand_nil]
        simp

end Verif.Editor
