import Verif.Server.Diag

/-!
# What the client shows
-/

namespace Verif.Server

variable {U : Type} [DecidableEq U]

/-- What a client shows for a document: what was published for it last, nothing if nothing was. -/
def shown (out : List (Publish U)) (u : U) : List (Diagnostic U) :=
  ((out.filter (fun p => p.uri = u)).getLast?.map Publish.diagnostics).getD []

/-- What a map has for a document; nothing if it is not in it. -/
def DiagMap.get (m : DiagMap U) (u : U) : List (Diagnostic U) :=
  ((m.find? (fun e => e.1 = u)).map Prod.snd).getD []

/-- The diagnostics of an error in a document: one for the error if it is there, with the notes that have
a document; and, for a client that does not know related information, one for each note that is
there.  Of an error without a document nothing is left. -/
def diagnosticsOf (url : Nat → Option U) (related : Bool) (u : U) (e : DMError) :
    List (Diagnostic U) :=
  if url e.loc.file = none then [] else
  (if url e.loc.file = some u then
    [{ message := e.text
       severity := e.severity
       range := (⟨e.loc.line - 1, e.loc.column - 1⟩, ⟨e.loc.line - 1, e.loc.column - 1⟩)
       source := e.component.getD "dm-langserver"
       code := e.code
       related := if related ∧ e.notes ≠ [] then
          some (e.notes.flatMap (fun n => (url n.loc.file).toList.map (fun uri =>
            ⟨uri, (⟨n.loc.line - 1, n.loc.column - 1⟩, ⟨n.loc.line - 1, n.loc.column - 1⟩), n.text⟩)))
         else none }]
   else []) ++
  (if related then [] else
    (e.notes.filter (fun n => url n.loc.file = some u)).map (fun n =>
      { message := n.text
        severity := .info
        range := (⟨n.loc.line - 1, n.loc.column - 1⟩, ⟨n.loc.line - 1, n.loc.column - 1⟩)
        source := e.component.getD "dm-langserver"
        code := none
        related := none }))

/-- Nobody has anything left to do but parsing. -/
def System.Quiet (s : System U) : Prop := s.main = .idle ∧ ∀ c ∈ s.checkers, c.pc = .done

end Verif.Server
