import Mathlib.Data.Rat.Floor

/-!
# Model of the check of `switch(rand(L, H))` (`crates/dreamchecker/src/switch_rand_range.rs`)

* A finite `f32` is a rational number (every such number, not only those of 24 bits); `ceil` and `floor` of a finite
  `f32` are exact.
* An expression is what `simple_evaluate` and `to_float` make of it: a number, or nothing.
* The message of a warning is its numbers.  The order of the warnings is kept.
-/

namespace Verif.SwitchRand

inductive F32 where
  | nan | inf | negInf
  | fin (q : ℚ)

def i32Max : Int := 2 ^ 31 - 1
def i32Min : Int := -2 ^ 31

/-- `as i32` of a whole number -/
def clamp (v : Int) : Int := max i32Min (min i32Max v)

/-- `x.ceil() as i32` (lines 29, 111) -/
def ceilI32 : F32 → Int
  | .nan => 0
  | .inf => i32Max
  | .negInf => i32Min
  | .fin q => clamp ⌈q⌉

/-- `x.floor() as i32` (lines 30, 111) -/
def floorI32 : F32 → Int
  | .nan => 0
  | .inf => i32Max
  | .negInf => i32Min
  | .fin q => clamp ⌊q⌋

/-- `Case`, after evaluation -/
inductive Case where
  | exact (v : Option F32)
  | range (lo hi : Option F32)

/-- `get_case_range` (lines 70-86) -/
def caseRange : Case → Option (F32 × F32)
  | .exact (some v) => some (v, v)
  | .exact none => none
  | .range (some lo) (some hi) => some (lo, hi)
  | .range _ _ => none

/-- `get_rand_range` (lines 88-112) of the arguments of `rand` -/
def randRange : List (Option F32) → Option (Int × Int)
  | [some lo, some hi] => some (ceilI32 lo, floorI32 hi)
  | [some hi] => some (ceilI32 (.fin 0), floorI32 hi)
  | _ => none

/-- the loop over the cases (lines 24-43): the ranges to keep and those that never trigger -/
def sortOut (rs re : Int) : List Case → List (Int × Int) × List (Int × Int)
  | [] => ([], [])
  | c :: cs =>
    let r := sortOut rs re cs
    match caseRange c with
    | none => r
    | some (lo, hi) =>
      if ceilI32 lo ≤ re ∧ floorI32 hi ≥ rs then ((ceilI32 lo, floorI32 hi) :: r.1, r.2)
      else (r.1, (ceilI32 lo, floorI32 hi) :: r.2)

/-- `end + 1` where arithmetic is checked -/
def checkedSucc (v : Int) : Option Int := if v = i32Max then none else some (v + 1)
/-- `end + 1` where arithmetic wraps -/
def wrappingSucc (v : Int) : Option Int := if v = i32Max then some i32Min else some (v + 1)

/-- the loop for gaps (lines 51-57); no result is a panic -/
def scan (succ : Int → Option Int) : Int → List (Int × Int) → Option Int
  | fu, [] => some fu
  | fu, (s, e) :: r =>
    if s > fu then some fu
    else
      match succ e with
      | none => none
      | some e' => scan succ (max fu e') r

structure Report where
  never : List (Int × Int)
  gap : Option Int
deriving DecidableEq

/-- `check_switch_rand_range` (lines 10-68); `input` is the arguments if it is a call of `rand`; no result is a panic -/
def check (succ : Int → Option Int) (input : Option (List (Option F32))) (cases : List Case) (default : Bool) :
    Option Report :=
  match input.bind randRange with
  | none => some ⟨[], none⟩
  | some (rs, re) =>
    let r := sortOut rs re cases
    if default then some ⟨r.2, none⟩
    else
      match scan succ rs (r.1.mergeSort fun a b => a.1 ≤ b.1) with
      | none => none
      | some fu => some ⟨r.2, if fu ≤ re then some fu else none⟩

end Verif.SwitchRand
