import Verif.Debug.Breaks

/-!
# C91: what the breakpoints of a session are
-/

namespace Verif.Debug

/-- the place a line stands for: the proc of the line (C92), and in it the instruction where the line
begins, as the engine tells -/
def linePlace (db : Db) (off : Text → Nat → Nat → Option Int) (f line : Nat) : Option Bp :=
  (db.tree.locationToProcRef f line).bind fun pnk =>
    (off (pnk.1 ++ '/' :: pnk.2.1) pnk.2.2 line).map fun o => ⟨pnk.1 ++ '/' :: pnk.2.1, pnk.2.2, o⟩

/-- the place a function name stands for: the beginning of the proc, if it is `known` -/
def funcPlace (known : Text → Nat → Bool) (name : Text) : Option Bp :=
  (parseFunction name).bind fun pk => if known pk.1 pk.2 then some ⟨pk.1, pk.2, 0⟩ else none

/-- the source a request is about, if it is not refused: a file of the environment that was not modified,
or the function breakpoints -/
def Req.source (db : Db) : Req → Option Nat
  | .lines path modified _ => if modified then none else path.bind db.fileId
  | .funcs _ => some fileFunctions

/-- the request can be read to its end: function names have proper numbers -/
def Req.complete : Req → Bool
  | .lines .. => true
  | .funcs names => names.all fun n => (parseFunction n.1).isSome

/-- the places that a request asks for, in order, with conditions -/
def Req.asked (db : Db) (off : Text → Nat → Nat → Option Int) (known : Text → Nat → Bool) :
    Req → List (Bp × Option Text)
  | .lines path _ bps =>
    ((path.bind db.fileId).map fun f =>
      bps.filterMap fun b => (linePlace db off f b.1).map fun p => (p, b.2)).getD []
  | .funcs names =>
    (names.takeWhile fun n => (parseFunction n.1).isSome).filterMap fun n =>
      (funcPlace known n.1).map fun p => (p, n.2)

/-- what the editor wishes for a source after the requests (the last one first): a request replaces the
wishes of its source; one that breaks off at a malformed name only adds to them -/
def wishes (db : Db) (off : Text → Nat → Nat → Option Int) (known : Text → Nat → Bool) :
    List Req → Nat → List (Bp × Option Text)
  | [], _ => []
  | r :: past, f =>
    if r.source db = some f then
      (if r.complete then [] else wishes db off known past f) ++ r.asked db off known
    else wishes db off known past f

/-- the last wish for a place -/
def LastWish (l : List (Bp × Option Text)) (b : Bp) (cond : Option Text) : Prop :=
  ∃ before after, l = before ++ (b, cond) :: after ∧ ∀ y ∈ after, y.1 ≠ b

/-- the offsets extools finds -/
def exOff (code : Text → Nat → List Instr) : Text → Nat → Nat → Option Int :=
  fun p k line => lineToOffset (code p k) line

/-- extools sets function breakpoints on procs of the object tree -/
def exKnown (db : Db) : Text → Nat → Bool := fun p k => (db.tree.getProc p k).isSome

/-- the offsets auxtools finds -/
def auxOff (env : AuxEnv) : Text → Nat → Nat → Option Int :=
  fun p k line => (env.offset p k line).map fun n => (n : Int)

/-- auxtools asks the game about every name -/
def auxKnown : Text → Nat → Bool := fun _ _ => true

end Verif.Debug
