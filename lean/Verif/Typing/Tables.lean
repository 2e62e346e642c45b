import Verif.Typing.Spec

/-!
# The tables used by the rules, said once more

`Verif.Typing.Spec` shares some tables and small tests with the model.  Here they are said independently, from the side of
what a user of DreamChecker sees.
-/

namespace Verif.Typing

/-- The global built-in procs whose result has a known type. -/
inductive BuiltinGives (t : Tree) : Ident → STy → Prop
  | argslist : BuiltinGives t "argslist" (.list .none)
  | flist : BuiltinGives t "flist" (.list .none)
  | iconStates : BuiltinGives t "icon_states" (.list .none)
  | splittext : BuiltinGives t "splittext" (.list .none)
  | typesof : BuiltinGives t "typesof" (.list .none)
  | block : BuiltinGives t "block" (.list (.type (t.expect "turf")))
  | bounds : BuiltinGives t "bounds" (.list (.type (t.expect "atom")))
  | obounds : BuiltinGives t "obounds" (.list (.type (t.expect "atom")))
  | orange : BuiltinGives t "orange" (.list (.type (t.expect "atom")))
  | oview : BuiltinGives t "oview" (.list (.type (t.expect "atom")))
  | range : BuiltinGives t "range" (.list (.type (t.expect "atom")))
  | view : BuiltinGives t "view" (.list (.type (t.expect "atom")))
  | hearers : BuiltinGives t "hearers" (.list (.type (t.expect "mob")))
  | ohearers : BuiltinGives t "ohearers" (.list (.type (t.expect "mob")))
  | oviewers : BuiltinGives t "oviewers" (.list (.type (t.expect "mob")))
  | viewers : BuiltinGives t "viewers" (.list (.type (t.expect "mob")))
  | getStep : BuiltinGives t "get_step" (.type (t.expect "turf"))
  | icon : BuiltinGives t "icon" (.type (t.expect "icon"))
  | matrix : BuiltinGives t "matrix" (.type (t.expect "matrix"))
  | regex : BuiltinGives t "regex" (.type (t.expect "regex"))

/-- **C79**: a call of a built-in proc has the type listed in `BuiltinGives`, and otherwise none. -/
theorem builtin_gives (t : Tree) (n : Ident) (s : STy) (hs : s ≠ .none) : builtinReturn t n = s ↔ BuiltinGives t n s := by
  constructor
  · intro h
    subst h
    unfold builtinReturn at hs ⊢
    split
    · rename_i h
      simp only [List.contains_eq_mem, List.mem_cons, List.not_mem_nil, or_false, decide_eq_true_eq] at h
      rcases h with rfl | rfl | rfl | rfl | rfl <;> constructor
    · split
      · rename_i h; rw [beq_iff_eq.1 h]; constructor
      · split
        · rename_i h
          simp only [List.contains_eq_mem, List.mem_cons, List.not_mem_nil, or_false, decide_eq_true_eq] at h
          rcases h with rfl | rfl | rfl | rfl | rfl | rfl <;> constructor
        · split
          · rename_i h
            simp only [List.contains_eq_mem, List.mem_cons, List.not_mem_nil, or_false, decide_eq_true_eq] at h
            rcases h with rfl | rfl | rfl | rfl <;> constructor
          · split
            · rename_i h; rw [beq_iff_eq.1 h]; constructor
            · split
              · rename_i h; rw [beq_iff_eq.1 h]; constructor
              · split
                · rename_i h; rw [beq_iff_eq.1 h]; constructor
                · split
                  · rename_i h; rw [beq_iff_eq.1 h]; constructor
                  · simp_all
  · intro h
    cases h <;> rfl

/-- The words before a declared type that do not count. -/
def Flag (x : Ident) : Prop :=
  x = "static" ∨ x = "global" ∨ x = "const" ∨ x = "tmp" ∨ x = "final" ∨
  x = "SpacemanDMM_final" ∨ x = "SpacemanDMM_private" ∨ x = "SpacemanDMM_protected"

theorem modifiers_iff (x : Ident) : x ∈ modifiers ↔ Flag x := by
  simp [modifiers, Flag]

/-- **C79**: an argument is a keyword argument exactly if it is a plain assignment to a bare identifier or string. -/
theorem kwarg_iff (e : Expr) (n : Ident) : e.kwarg = some n ↔
    ∃ l r, e = .assign .assign (.base l (.ident n) .nil) r ∨ e = .assign .assign (.base l (.string n) .nil) r := by
  constructor
  · intro h
    cases e with
    | assign op x r =>
      cases op with
      | compound => cases h
      | assign =>
        cases x with
        | base l t fs =>
          cases fs with
          | cons => cases h
          | nil => cases t <;> first | cases h | skip
                   · exact ⟨l, r, .inr rfl⟩
                   · exact ⟨l, r, .inl rfl⟩
        | _ => cases h
    | _ => cases h
  · rintro ⟨l, r, rfl | rfl⟩ <;> rfl

/-- **C79**: the call is excused for a missing `type` exactly if its first argument is `arglist(..)`. -/
theorem usesArglist_iff (es : List Expr) : usesArglist es = true ↔
    ∃ l args rest, es = .base l (.call "arglist" args) .nil :: rest := by
  constructor
  · intro h
    cases es with
    | nil => cases h
    | cons e rest =>
      cases e with
      | base l t fs =>
        cases fs with
        | cons => cases h
        | nil =>
          cases t with
          | call n args =>
            have : n = "arglist" := beq_iff_eq.1 h
            exact ⟨l, args, rest, by rw [this]⟩
          | _ => cases h
      | _ => cases h
  · rintro ⟨l, args, rest, rfl⟩; rfl

/-- The filters that have a parameter of this name, beside `type` and `name`. -/
def filtersWith : Ident → List Ident
  | "x" | "y" => ["alpha", "angular_blur", "displace", "drop_shadow", "layer", "motion_blur", "radial_blur", "rays", "ripple", "wave"]
  | "size" => ["angular_blur", "bloom", "displace", "drop_shadow", "blur", "outline", "radial_blur", "rays", "ripple", "wave"]
  | "icon" | "render_source" => ["alpha", "displace", "layer"]
  | "flags" => ["alpha", "displace", "layer", "outline", "rays", "ripple", "wave"]
  | "color" => ["color", "drop_shadow", "layer", "outline", "rays"]
  | "space" => ["color"]
  | "threshold" => ["bloom", "rays"]
  | "offset" => ["bloom", "drop_shadow", "rays", "wave"]
  | "alpha" => ["bloom"]
  | "transform" | "blend_mode" => ["layer"]
  | "density" | "factor" => ["rays"]
  | "repeat" | "radius" | "falloff" => ["ripple"]
  | _ => []

/-- **C79**: the parameters of the filters. -/
theorem filter_params (f k : Ident) : (∃ args, filterTypes.lookup f = some args ∧ k ∈ args) ↔ f ∈ filtersWith k := by
  have hk : k ∈ ["x", "y", "size", "icon", "render_source", "flags", "color", "space", "threshold", "offset", "alpha",
      "transform", "blend_mode", "density", "factor", "repeat", "radius", "falloff"] ∨ filtersWith k = [] ∧
      ∀ p ∈ filterTypes, k ∉ p.2 := by
    by_cases h : k ∈ ["x", "y", "size", "icon", "render_source", "flags", "color", "space", "threshold", "offset", "alpha",
      "transform", "blend_mode", "density", "factor", "repeat", "radius", "falloff"]
    · exact .inl h
    · right
      simp only [List.mem_cons, List.not_mem_nil, or_false, not_or] at h
      constructor
      · unfold filtersWith
        split <;> first | rfl | (exfalso; simp_all)
      · intro p hp
        simp only [filterTypes, List.mem_cons, List.not_mem_nil, or_false] at hp
        rcases hp with rfl | rfl | rfl | rfl | rfl | rfl | rfl | rfl | rfl | rfl | rfl | rfl | rfl | rfl <;> simp [h]
  have hf : f ∈ filterTypes.map Prod.fst ∨ filterTypes.lookup f = none := by
    by_cases h : f ∈ filterTypes.map Prod.fst
    · exact .inl h
    · right
      exact List.lookup_eq_none_iff.2 fun p hp => by
        rw [bne_iff_ne]; rintro rfl; exact h (List.mem_map_of_mem hp)
  have all : ∀ k ∈ ["x", "y", "size", "icon", "render_source", "flags", "color", "space", "threshold", "offset", "alpha",
      "transform", "blend_mode", "density", "factor", "repeat", "radius", "falloff"],
      (∀ f ∈ filtersWith k, f ∈ filterTypes.map Prod.fst) ∧ ∀ f ∈ filterTypes.map Prod.fst,
        (((filterTypes.lookup f).getD []).contains k = (filtersWith k).contains f) := by decide +kernel
  rcases hk with hk | ⟨hk1, hk2⟩
  · obtain ⟨h1, h2⟩ := all k hk
    rcases hf with hf | hf
    · have := h2 f hf
      rw [List.contains_eq_mem, List.contains_eq_mem, decide_eq_decide] at this
      rw [← this]
      cases hl : filterTypes.lookup f with
      | none => simp
      | some a => simp
    · constructor
      · rintro ⟨_, h, _⟩; rw [hf] at h; cases h
      · intro h
        have := h1 f h
        exfalso
        rw [List.lookup_eq_none_iff] at hf
        obtain ⟨p, hp, rfl⟩ := List.mem_map.1 this
        have := hf p hp
        simp at this
  · rw [hk1]
    constructor
    · rintro ⟨args, h, hm⟩
      exact absurd hm (hk2 (f, args) (List.lookup_eq_some_iff.1 h |> fun ⟨l1, l2, h, _⟩ => h ▸ by simp))
    · intro h; cases h

/-- The flags allowed for the parameter with flags of each filter, whether only one may be given, and whether 0 may. -/
inductive FilterFlag : Ident → Ident → Bool → Bool → Ident → Prop
  | maskInverse : FilterFlag "alpha" "flags" false true "MASK_INVERSE"
  | maskSwap : FilterFlag "alpha" "flags" false true "MASK_SWAP"
  | rgb : FilterFlag "color" "space" true false "FILTER_COLOR_RGB"
  | hsv : FilterFlag "color" "space" true false "FILTER_COLOR_HSV"
  | hsl : FilterFlag "color" "space" true false "FILTER_COLOR_HSL"
  | hcy : FilterFlag "color" "space" true false "FILTER_COLOR_HCY"
  | displace : FilterFlag "displace" "flags" false true "FILTER_OVERLAY"
  | layerOver : FilterFlag "layer" "flags" true true "FILTER_OVERLAY"
  | layerUnder : FilterFlag "layer" "flags" true true "FILTER_UNDERLAY"
  | raysOver : FilterFlag "rays" "flags" false true "FILTER_OVERLAY"
  | raysUnder : FilterFlag "rays" "flags" false true "FILTER_UNDERLAY"
  | sharp : FilterFlag "outline" "flags" false true "OUTLINE_SHARP"
  | square : FilterFlag "outline" "flags" false true "OUTLINE_SQUARE"
  | ripple : FilterFlag "ripple" "flags" false true "WAVE_BOUNDED"
  | sideways : FilterFlag "wave" "flags" false true "WAVE_SIDEWAYS"
  | bounded : FilterFlag "wave" "flags" false true "WAVE_BOUNDED"

/-- **C79**: the flags of the filters. -/
theorem filter_flags (f : Ident) (p : Ident) (ex z : Bool) (g : Ident) :
    (∃ r, filterFlags.lookup f = some r ∧ r.field = p ∧ r.exclusive = ex ∧ r.canBeZero = z ∧ g ∈ r.flags) ↔
      FilterFlag f p ex z g := by
  constructor
  · rintro ⟨r, h, rfl, rfl, rfl, hg⟩
    have hm : (f, r) ∈ filterFlags := List.lookup_eq_some_iff.1 h |> fun ⟨l1, l2, h, _⟩ => h ▸ by simp
    simp only [filterFlags, List.mem_cons, List.not_mem_nil, or_false, Prod.mk.injEq] at hm
    rcases hm with ⟨rfl, rfl⟩ | ⟨rfl, rfl⟩ | ⟨rfl, rfl⟩ | ⟨rfl, rfl⟩ | ⟨rfl, rfl⟩ | ⟨rfl, rfl⟩ | ⟨rfl, rfl⟩ | ⟨rfl, rfl⟩ <;>
    · simp only [List.mem_cons, List.not_mem_nil, or_false] at hg
      first
        | (rcases hg with rfl | rfl | rfl | rfl <;> constructor)
        | (rcases hg with rfl | rfl <;> constructor)
        | (rcases hg with rfl; constructor)
  · intro h
    cases h <;> exact ⟨_, rfl, rfl, rfl, rfl, by decide⟩

end Verif.Typing
