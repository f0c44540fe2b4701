import Verif.Model.Server
/-!
# What a client of the server relies on
-/
namespace Tinymist.Server
variable {I V H : Type} [DecidableEq I]

/-- The ids of all requests in a history. -/
def requestIds : List (Event I V H) → List I
  | [] => []
  | .request r :: es => r.id :: requestIds es
  | _ :: es => requestIds es

/-- The ids that have been answered, one entry per response put on the wire. -/
def answered (s : Lsp I V H) : List I := s.q.sent.map Prod.fst

/-- The request's handler, if it is invoked, answers later. -/
def Deferred (r : Request I V) : Prop := r.act = .sched .future

/-- Nothing in the history ends the session. -/
def NoExit (es : List (Event I V H)) : Prop := Event.notification "exit" ∉ es

/-- The client has sent a well-formed `initialize`. -/
def Started (es : List (Event I V H)) : Prop :=
  ∃ r, Event.request r ∈ es ∧ r.method = "initialize" ∧ r.paramsOk = true

/-- … and, later, `initialized`. -/
def Opened (es : List (Event I V H)) : Prop :=
  ∃ a b, es = a ++ .notification "initialized" :: b ∧ Started a

/-- … and, later, `shutdown`. -/
def ShutDown (es : List (Event I V H)) : Prop :=
  ∃ a r b, es = a ++ .request r :: b ∧ Opened a ∧ r.method = "shutdown"

/-- The request is refused with `code` and has no other effect. -/
def Refused (t : Table) (s : Lsp I V H) (r : Request I V) (code : Err) : Prop :=
  step t s (.request r) =
    some { s with q := { s.q with sent := s.q.sent ++ [(r.id, .err code)] } }

/-- The number of requests the server sent to the client. -/
def sends : List (Event I V H) → Nat
  | [] => 0
  | .send _ :: es => sends es + 1
  | _ :: es => sends es

/-- DAP: the sequence numbers of all requests in a history. -/
def seqs : List (DapEvent V) → List Int
  | [] => []
  | .request r :: es => r.id :: seqs es
  | _ :: es => seqs es

/-- DAP: the client has sent a well-formed `initialize`. -/
def DapStarted (es : List (DapEvent V)) : Prop :=
  ∃ r, DapEvent.request r ∈ es ∧ r.method = "initialize" ∧ r.paramsOk = true

/-- DAP: … and, later, `disconnect`. -/
def DapDisconnected (es : List (DapEvent V)) : Prop :=
  ∃ a r b, es = a ++ .request r :: b ∧ DapStarted a ∧ r.method = "disconnect"

end Tinymist.Server
