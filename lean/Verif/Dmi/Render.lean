import Verif.Dmi.Composite

/-!
# Rendering icon states (`crates/dmm-tools/src/dmi/render.rs`, C49)
-/

namespace Verif.Dmi

set_option linter.unusedSectionVars false

variable {D : Type}

/-- `IconFile` (dmm-tools/src/dmi.rs:22-27) -/
structure Icon (D : Type) where
  info : Meta D
  image : Image

/-- `get_canvas` (render.rs:103-114) -/
def Icon.canvas (ic : Icon D) (dirs : Dirs) : Image :=
  match dirs with
  | .one => Image.blank ic.info.width ic.info.height
  | .four => Image.blank (ic.info.width * 4) ic.info.height
  | .eight => Image.blank (ic.info.width * 8) ic.info.height

/-- the loop of `render_dirs` (render.rs:138-147) from direction number `k` on -/
def Icon.dirsFrom (ic : Icon D) (s : State D) (frame : Nat) : Nat → List Dir → Image → Option Image
  | _, [], c => some c
  | k, dir :: dirs, c =>
    (ic.info.rectOfIndex ic.image.width (s.indexOfFrame dir frame)).bind fun r =>
      (c.composite ic.image (ic.info.width * k) 0 r ⟨255, 255, 255, 255⟩).bind (Icon.dirsFrom ic s frame (k + 1) dirs)

/-- `render_dirs` (render.rs:136-148) -/
def Icon.renderDirs (ic : Icon D) (s : State D) (c : Image) (frame : Nat) : Option Image :=
  ic.dirsFrom s frame 0 (orderedDirs s.dirs) c

/-- the frames in playing order (render.rs:90-94, 172-176) -/
def frameRange (s : State D) : List Nat :=
  if s.rewind then List.range s.frames.num ++ (List.range s.frames.num).reverse else List.range s.frames.num

/-- the loop of `render_frames` (render.rs:95-99): the canvas is cleared after each frame -/
def Icon.framesFrom (ic : Icon D) (s : State D) : List Nat → Image → Option (List Image)
  | [], _ => some []
  | f :: fs, c => (ic.renderDirs s c f).bind fun c' => (Icon.framesFrom ic s fs c'.clear).map (c' :: ·)

/-- `render_frames` (render.rs:82-101), also what `render_gif` writes (render.rs:151-200) -/
def Icon.renderFrames (ic : Icon D) (s : State D) : Option (List Image) :=
  ic.framesFrom s (frameRange s) (ic.canvas s.dirs)

/-- `render_to_images` (render.rs:73-76): outer `none` a panic, inner `none` "not found" -/
def Icon.renderToImages (ic : Icon D) (k : List Char × Nat) : Option (Option (List Image)) :=
  (ic.info.getIconState k).bind fun r =>
    match r with
    | none => some none
    | some s => (ic.renderFrames s).map some

/-- the image `render_to_png` writes (render.rs:203-211) -/
def Icon.renderPng (ic : Icon D) (s : State D) : Option Image := ic.renderDirs s (ic.canvas s.dirs) 0

/-! ## Specification -/

/-- a pixel as it shows on a clear canvas: fully transparent ones lose their colour -/
def shown (p : Px) : Px := if p.a = 0 then ⟨0, 0, 0, 0⟩ else p

/-- image `c` shows frame `f` of state `s`: one sprite for each direction, side by side in the order of the
sheet, pixel by pixel as in the sheet, where sprite `n` is in column `n % columns` and row `n / columns` -/
def ShowsFrame (ic : Icon D) (s : State D) (f : Nat) (c : Image) : Prop :=
  c.width = ic.info.width * s.dirs.count ∧ c.height = ic.info.height ∧
  ∀ k x y, k < s.dirs.count → x < ic.info.width → y < ic.info.height →
    ∃ p, ic.image.at ((s.offset + f * s.dirs.count + k) % (ic.image.width / ic.info.width) * ic.info.width + x)
        ((s.offset + f * s.dirs.count + k) / (ic.image.width / ic.info.width) * ic.info.height + y) = some p
      ∧ c.at (ic.info.width * k + x) y = some (shown p)

/-- the sheet has room for all sprites of the state -/
def Fits (ic : Icon D) (s : State D) : Prop :=
  s.offset + s.dirs.count * s.frames.num
    ≤ ic.image.width / ic.info.width * (ic.image.height / ic.info.height)

/-! ## Proof -/

theorem canvas_eq (ic : Icon D) (d : Dirs) :
    ic.canvas d = Image.blank (ic.info.width * d.count) ic.info.height := by
  cases d
  · simp [Icon.canvas, Dirs.count]
  · rfl
  · rfl

theorem blank_ok (w h : Nat) : (Image.blank w h).OK :=
  ⟨by simp [Image.blank], by
    intro p hp
    rw [(List.mem_replicate.1 hp).2]
    decide⟩

theorem blank_at (w h x y : Nat) (hx : x < w) (hy : y < h) : (Image.blank w h).at x y = some ⟨0, 0, 0, 0⟩ := by
  obtain ⟨p, hp, _⟩ := Image.at_some (blank_ok w h) (x := x) (y := y) hx hy
  rw [hp]
  have : p ∈ (Image.blank w h).data := List.mem_of_getElem? hp
  rw [(List.mem_replicate.1 this).2]

theorem clear_eq {c : Image} (h : c.OK) : c.clear = Image.blank c.width c.height := by
  unfold Image.clear Image.blank
  rw [List.map_const', h.len]

/-- what the canvas shows when the directions before `k` have been drawn -/
structure Drawn (ic : Icon D) (s : State D) (f k : Nat) (c : Image) : Prop where
  ok : c.OK
  width : c.width = ic.info.width * s.dirs.count
  height : c.height = ic.info.height
  done : ∀ k' x y, k' < k → x < ic.info.width → y < ic.info.height →
    ∃ p, ic.image.at ((s.offset + f * s.dirs.count + k') % (ic.image.width / ic.info.width) * ic.info.width + x)
        ((s.offset + f * s.dirs.count + k') / (ic.image.width / ic.info.width) * ic.info.height + y) = some p
      ∧ c.at (ic.info.width * k' + x) y = some (shown p)
  rest : ∀ x y, ic.info.width * k ≤ x → x < c.width → y < c.height → c.at x y = some ⟨0, 0, 0, 0⟩

theorem dirsFrom_exact (ic : Icon D) (s : State D) (f : Nat) (himg : ic.image.OK) (hw : 0 < ic.info.width)
    (hb : ic.info.width ≤ ic.image.width) (hfit : Fits ic s) (hf : f < s.frames.num) (ds : List Dir) :
    ∀ (k : Nat) (c : Image), (∀ j, ds[j]? = (orderedDirs s.dirs)[k + j]?) → k + ds.length = s.dirs.count →
      Drawn ic s f k c → ∃ c', ic.dirsFrom s f k ds c = some c' ∧ Drawn ic s f s.dirs.count c' := by
  induction ds with
  | nil =>
    intro k c _ hl hd
    simp only [List.length_nil, Nat.add_zero] at hl
    subst hl
    exact ⟨c, rfl, hd⟩
  | cons dir ds ih =>
    intro k c hds hl hd
    simp only [List.length_cons] at hl
    have hdir : (orderedDirs s.dirs)[k]? = some dir := by
      have := hds 0
      simpa using this.symm
    have hidx := indexOfFrame_exact s k f dir hdir
    have hcap : s.indexOfFrame dir f < ic.image.width / ic.info.width * (ic.image.height / ic.info.height) := by
      have := ((frames_of_state s (s.indexOfFrame dir f)).2
        ⟨dir, List.mem_of_getElem? hdir, f, hf, rfl⟩).2
      unfold Fits at hfit
      omega
    obtain ⟨r, hr, hrw, hrh, hrx, hry⟩ := rect_inside ic.info ic.image.width ic.image.height
      (s.indexOfFrame dir f) hw hb
    have hry := hry hcap
    have hrxy : r.x = s.indexOfFrame dir f % (ic.image.width / ic.info.width) * ic.info.width
        ∧ r.y = s.indexOfFrame dir f / (ic.image.width / ic.info.width) * ic.info.height := by
      unfold Meta.rectOfIndex at hr
      split at hr
      · cases hr
      · simp only at hr
        split at hr
        · cases hr
        · cases hr; exact ⟨rfl, rfl⟩
    have hroom : ic.info.width * k + ic.info.width ≤ c.width := by
      rw [hd.width]
      have : ic.info.width * (k + 1) ≤ ic.info.width * s.dirs.count := Nat.mul_le_mul_left _ (by omega)
      rw [Nat.mul_add, Nat.mul_one] at this
      exact this
    obtain ⟨c1, hc1, hok1, hw1, hh1, hin, hout⟩ := composite_exact c ic.image hd.ok himg (ic.info.width * k) 0 r
      ⟨255, 255, 255, 255⟩ (by decide) hrx hry (by rw [hrw]; exact hroom) (by rw [hrh, hd.height]; omega)
    have hd1 : Drawn ic s f (k + 1) c1 := by
      refine ⟨hok1, hw1.trans hd.width, hh1.trans hd.height, ?_, ?_⟩
      · intro k' x y hk' hx hy
        by_cases hkk : k' = k
        · subst hkk
          obtain ⟨sp, dp, p, h1, h2, h3, h4⟩ := hin x y (by omega) (by omega)
          have hsp : sp.OK := himg.px _ (List.mem_of_getElem? h1)
          rw [hd.rest _ _ (by omega) (by omega) (by rw [hd.height]; omega)] at h2
          cases h2
          rw [tint_none hsp, blend_over_clear hsp rfl] at h3
          refine ⟨sp, ?_, ?_⟩
          · rw [← h1, ← hidx, hrxy.1, hrxy.2]
          · rw [Nat.zero_add] at h4
            rw [h4, ← h3]
            rfl
        · obtain ⟨p, h1, h2⟩ := hd.done k' x y (by omega) hx hy
          refine ⟨p, h1, ?_⟩
          have hlt : ic.info.width * k' + ic.info.width ≤ ic.info.width * k := by
            have : ic.info.width * (k' + 1) ≤ ic.info.width * k := Nat.mul_le_mul_left _ (by omega)
            rw [Nat.mul_add, Nat.mul_one] at this
            exact this
          rw [hout _ _ (by omega) (by omega)]
          exact h2
      · intro x y h1 h2 h3
        rw [Nat.mul_add, Nat.mul_one] at h1
        rw [hout _ _ (by omega) (by omega)]
        exact hd.rest _ _ (by omega) (by omega) (by omega)
    obtain ⟨c', hc', hd'⟩ := ih (k + 1) c1
      (fun j => by have := hds (j + 1); simpa [Nat.add_assoc, Nat.add_comm 1 j] using this) (by omega) hd1
    refine ⟨c', ?_, hd'⟩
    rw [Icon.dirsFrom, hr, Option.bind_some, hc1, Option.bind_some, hc']

/-- **C49**: drawing a frame on a clear canvas shows every direction of it. -/
theorem renderDirs_exact (ic : Icon D) (s : State D) (f : Nat) (himg : ic.image.OK) (hw : 0 < ic.info.width)
    (hb : ic.info.width ≤ ic.image.width) (hfit : Fits ic s) (hf : f < s.frames.num) :
    ∃ c, ic.renderDirs s (Image.blank (ic.info.width * s.dirs.count) ic.info.height) f = some c ∧ c.OK
      ∧ ShowsFrame ic s f c := by
  obtain ⟨c, hc, hd⟩ := dirsFrom_exact ic s f himg hw hb hfit hf (orderedDirs s.dirs) 0
    (Image.blank (ic.info.width * s.dirs.count) ic.info.height) (fun j => by simp)
    (by rw [orderedDirs_length]; omega)
    ⟨blank_ok _ _, rfl, rfl, fun k' x y hk => absurd hk (by omega), fun x y _ h2 h3 => blank_at _ _ _ _ h2 h3⟩
  exact ⟨c, hc, hd.ok, hd.width, hd.height, fun k x y hk hx hy => hd.done k x y hk hx hy⟩

theorem framesFrom_exact (ic : Icon D) (s : State D) (himg : ic.image.OK) (hw : 0 < ic.info.width)
    (hb : ic.info.width ≤ ic.image.width) (hfit : Fits ic s) (fs : List Nat) (hf : ∀ f ∈ fs, f < s.frames.num) :
    ∃ cs, ic.framesFrom s fs (Image.blank (ic.info.width * s.dirs.count) ic.info.height) = some cs
      ∧ List.Forall₂ (ShowsFrame ic s) fs cs := by
  induction fs with
  | nil => exact ⟨[], rfl, .nil⟩
  | cons f fs ih =>
    obtain ⟨c, hc, hok, hs⟩ := renderDirs_exact ic s f himg hw hb hfit (hf f (by simp))
    obtain ⟨cs, hcs, hall⟩ := ih fun f hf' => hf f (by simp [hf'])
    refine ⟨c :: cs, ?_, .cons hs hall⟩
    rw [Icon.framesFrom, hc, Option.bind_some, clear_eq hok, hs.1, hs.2.1, hcs]
    rfl

/-- **C49**: rendering a state gives its frames in order, followed by the frames in reverse order if it
rewinds; every image shows all directions of its frame side by side, pixel by pixel as in the sheet. -/
theorem renderFrames_exact (ic : Icon D) (s : State D) (himg : ic.image.OK) (hw : 0 < ic.info.width)
    (hb : ic.info.width ≤ ic.image.width) (hfit : Fits ic s) :
    ∃ cs, ic.renderFrames s = some cs
      ∧ cs.length = (if s.rewind then 2 * s.frames.num else s.frames.num)
      ∧ (∀ (t : Nat), t < s.frames.num → ∃ c, cs[t]? = some c ∧ ShowsFrame ic s t c)
      ∧ (s.rewind = true → ∀ (t : Nat), t < s.frames.num →
          ∃ c, cs[s.frames.num + t]? = some c ∧ ShowsFrame ic s (s.frames.num - 1 - t) c) := by
  have hr : ∀ f ∈ frameRange s, f < s.frames.num := by
    intro f hf
    unfold frameRange at hf
    split at hf <;> simp at hf <;> exact hf
  obtain ⟨cs, hcs, hall⟩ := framesFrom_exact ic s himg hw hb hfit (frameRange s) hr
  have hget : ∀ (t f : Nat), (frameRange s)[t]? = some f → ∃ c, cs[t]? = some c ∧ ShowsFrame ic s f c := by
    clear hcs hr
    generalize frameRange s = fs at hall
    induction hall with
    | nil => intro t f h; simp at h
    | cons h1 _ ih =>
      intro t f h
      cases t with
      | zero => simp only [List.getElem?_cons_zero, Option.some.injEq] at h; subst h; exact ⟨_, rfl, h1⟩
      | succ t => simpa using ih t f (by simpa using h)
  refine ⟨cs, by unfold Icon.renderFrames; rw [canvas_eq]; exact hcs, ?_, ?_, ?_⟩
  · rw [← hall.length_eq]
    unfold frameRange
    split <;> simp; omega
  · intro t ht
    refine hget t t ?_
    unfold frameRange
    split
    · rw [List.getElem?_append_left (by simpa using ht)]
      simp [ht]
    · simp [ht]
  · intro hrew t ht
    refine hget _ _ ?_
    unfold frameRange
    rw [if_pos hrew, List.getElem?_append_right (by simp)]
    simp only [List.length_range, Nat.add_sub_cancel_left]
    rw [List.getElem?_reverse (by simpa using ht), List.length_range]
    rw [List.getElem?_range (by omega)]

variable (parseDelay : List Char → Option D) (isOne : D → Bool)

/-- **C49**: for an icon file whose sheet has room for every sprite its metadata lists, each name and number
renders without panic: to the frames of the state they name, or to "not found" if there is none. -/
theorem renderToImages_exact {data : List Char} (ic : Icon D)
    (h : parseMetadata parseDelay isOne data = .ok ic.info) (himg : ic.image.OK) (hw : 0 < ic.info.width)
    (hb : ic.info.width ≤ ic.image.width)
    (hroom : (ic.info.states.map fun t => t.dirs.count * t.frames.num).sum
      ≤ ic.image.width / ic.info.width * (ic.image.height / ic.info.height)) (n : List Char) (k : Nat) :
    (∃ s ∈ ic.info.states, s.name = n ∧ s.dup = k ∧ ∃ cs, ic.renderFrames s = some cs
        ∧ ic.renderToImages (n, k) = some (some cs))
      ∨ ((∀ s ∈ ic.info.states, ¬ (s.name = n ∧ s.dup = k)) ∧ ic.renderToImages (n, k) = some none) := by
  obtain ⟨r, hr, hx⟩ := getIconState_exact parseDelay isOne h n k
  unfold Icon.renderToImages
  rw [hr, Option.bind_some]
  cases r with
  | none =>
    right
    refine ⟨fun s hs hc => ?_, rfl⟩
    exact absurd ((hx s).2 ⟨hs, hc.1, hc.2⟩) (by simp)
  | some s =>
    left
    obtain ⟨hs, hn, hk⟩ := (hx s).1 rfl
    obtain ⟨i, hi⟩ := List.mem_iff_getElem?.1 hs
    have hfit : Fits ic s := by
      unfold Fits
      refine Nat.le_trans ?_ hroom
      rw [((parse_inv parseDelay isOne h).1 i s hi).1, ← spriteSum_take_succ hi]
      have := spriteSum_take_mono ic.info.states (i := i + 1) (j := ic.info.states.length)
        (List.getElem?_eq_some_iff.1 hi).1
      rwa [List.take_length] at this
    obtain ⟨cs, hcs, _⟩ := renderFrames_exact ic s himg hw hb hfit
    refine ⟨s, hs, hn, hk, cs, hcs, ?_⟩
    simp only [hcs, Option.map_some]

/-- a two-frame state with one direction on a sheet of 1x1 sprites, with rewind -/
example : (Icon.mk (D := Nat) ⟨1, 1, [⟨[], false, 0, 0, 0, true, .one, .count 2⟩], fun _ => none⟩
      ⟨2, 1, [⟨1, 2, 3, 255⟩, ⟨4, 5, 6, 0⟩]⟩).renderFrames ⟨[], false, 0, 0, 0, true, .one, .count 2⟩
    = some [⟨1, 1, [⟨1, 2, 3, 255⟩]⟩, ⟨1, 1, [⟨0, 0, 0, 0⟩]⟩, ⟨1, 1, [⟨0, 0, 0, 0⟩]⟩, ⟨1, 1, [⟨1, 2, 3, 255⟩]⟩] := by
  decide

/-- disagreement: a sheet too small for the sprites the metadata lists panics -/
theorem render_small_sheet_panics :
    (Icon.mk (D := Nat) ⟨1, 1, [], fun _ => none⟩ ⟨1, 1, [⟨1, 2, 3, 255⟩]⟩).renderFrames
      ⟨[], false, 0, 0, 0, false, .one, .count 2⟩ = none := by decide

end Verif.Dmi
