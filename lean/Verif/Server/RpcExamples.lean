import Verif.Server.RpcProps

/-!
# C87: sessions
-/

namespace Verif.Server

/-- Handlers that log their names; parameters are texts, the text "bad" is malformed.  `Shutdown`
takes no parameters. -/
def demo : Handlers Nat (List String) String where
  init := fun p => if p = "bad" then .error "no such field" else
    .ok (fun s => (s ++ ["init"], [("dm/windowStatus", "loading")], .ok "capabilities"))
  shutdown := fun p => if p = "null" then .ok () else .error "expected unit"
  unit := "null"
  request := fun n => if n = "textDocument/hover" then
      some (fun p => if p = "bad" then .error "no such field" else
        .ok (fun s => (s ++ ["hover"], [], .ok "a hover")))
    else none
  notification := fun n => if n = "textDocument/didOpen" then
      some (fun p => if p = "bad" then .error "no such field" else
        .ok (fun s => if s.contains "open" then (s, [], .error ⟨-32600, "already open"⟩)
          else (s ++ ["open"], [], .ok ())))
    else none
  showError := fun m => m
  null := 0

/-- Where the process ends, without its state. -/
def seen (r : Engine Nat (List String) String × Nat) : List String × List (Written Nat String) × Nat :=
  (r.1.state, r.1.out, r.2)

/-- A request that comes too early, an `initialize`, requests, a failing notification, a `shutdown`,
a request that comes too late, `exit`. -/
example : seen (main demo [] [
    .single (.method 1 "textDocument/hover" "x"),
    .single (.notification "textDocument/didOpen" "x"),
    .single (.method 2 "initialize" "bad"),
    .single (.method 3 "initialize" "root"),
    .batch [.method 4 "textDocument/hover" "x", .notification "textDocument/didOpen" "x",
      .method 5 "textDocument/rename" "x"],
    .single (.notification "textDocument/didOpen" "x"),
    .garbage "expected value",
    .single (.method 6 "initialize" "root"),
    .single (.method 7 "shutdown" "null"),
    .single (.method 8 "textDocument/hover" "x"),
    .single (.notification "exit" "null"),
    .single (.method 9 "textDocument/hover" "x")]) =
  (["init", "hover", "open"],
   [.single ⟨1, .error ⟨-32002, "method call before initialize or after shutdown"⟩⟩,
    .single ⟨2, .error ⟨-32600, "no such field"⟩⟩,
    .notify "dm/windowStatus" "loading",
    .single ⟨3, .ok "capabilities"⟩,
    .batch [⟨4, .ok "a hover"⟩, ⟨5, .error ⟨-32603, "not yet implemented"⟩⟩],
    .notify "window/showMessage" "already open",
    .single ⟨0, .error ⟨-32700, "expected value"⟩⟩,
    .single ⟨6, .error ⟨-32600, ""⟩⟩,
    .single ⟨7, .ok "null"⟩,
    .single ⟨8, .error ⟨-32002, "method call before initialize or after shutdown"⟩⟩], 0) := by
  rfl

/-- `exit` without `shutdown`. -/
example : (main demo [] [.single (.method 3 "initialize" "root"),
    .single (.notification "exit" "null")]).2 = 1 := by rfl

/-- The hypotheses of `main_exit` for the first session. -/
example : Closed demo [.method 3 "initialize" "root", .method 7 "shutdown" "null"] :=
  ⟨[.method 3 "initialize" "root"], 7, "null", [], rfl, rfl, 3, "root", _, List.mem_cons_self, rfl⟩

/-- The hypotheses of `main_session`, `answered_once`. -/
example : ∀ c ∈ ([.single (.method 3 "initialize" "root"),
    .single (.notification "textDocument/didOpen" "x")] : List (Message Nat String)).flatMap
      Message.calls, ¬ c.IsExit := by
  intro c hc
  simp only [List.flatMap_cons, Message.calls, List.flatMap_nil, List.append_nil, List.mem_append,
    List.mem_singleton] at hc
  rcases hc with rfl | rfl
  · rintro ⟨p, h⟩; cases h
  · rintro ⟨p, h⟩
    injection h with h _
    exact absurd h (by decide)

/-! ### Disagreements -/

/-- JSON-RPC asks for an array in answer to an array; a batch with one request is answered by a single
object. -/
theorem batch_of_one : (main demo [] [.batch [.method 3 "initialize" "root"]]).1.out =
    [.notify "dm/windowStatus" "loading", .single ⟨3, .ok "capabilities"⟩] := by rfl

/-- An empty batch is an invalid request that has to be answered; nothing is written. -/
theorem empty_batch : (main demo [] [.batch []]).1.out = [] := by rfl

/-- A `shutdown` in one batch with `exit` is carried out but never answered. -/
theorem batch_exit_unanswered : seen (main demo [] [.single (.method 3 "initialize" "root"),
    .batch [.method 4 "textDocument/hover" "x", .method 7 "shutdown" "null",
      .notification "exit" "null"]]) =
  (["init", "hover"], [.notify "dm/windowStatus" "loading", .single ⟨3, .ok "capabilities"⟩], 0) := by
  rfl

/-- The parameters of `shutdown` have to be left out: with an empty object it is refused, and a later
`exit` ends with 1. -/
theorem shutdown_with_params : seen (main demo [] [.single (.method 3 "initialize" "root"),
    .single (.method 4 "shutdown" "{}"), .single (.notification "exit" "null")]) =
  (["init"], [.notify "dm/windowStatus" "loading", .single ⟨3, .ok "capabilities"⟩,
    .single ⟨4, .error ⟨-32600, "expected unit"⟩⟩], 1) := by
  rfl

/-- The end of the input without a `shutdown` counts as success. -/
theorem eof_is_success : (main demo [] [.single (.method 3 "initialize" "root")]).2 = 0 := by rfl

end Verif.Server
