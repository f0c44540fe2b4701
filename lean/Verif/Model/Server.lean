/-!
# Language server driver

Models `crates/sync-lsp/src/{req_queue,server}.rs` and `server/{lsp_srv,dap_srv}.rs`: request
registration and answering, scheduling of handlers, the LSP and DAP state machines and the queue of
outgoing requests.

What a handler does with a request is not modelled: every event carries the outcome of the handler it
would invoke, and the theorems quantify over all of them.  The main loop and the tasks completing
futures each take `req_queue`'s mutex for a whole `respond`/`register`, so a history is a list of
atomic events in any order.
-/
namespace Tinymist.Server

/-- `ErrorCode`, msg.rs:76-129 (the ones the driver itself produces; `other` for handlers' errors). -/
inductive Err where
  | serverNotInitialized | invalidRequest | methodNotFound | invalidParams | requestCanceled
  | other (code : Int)
  deriving DecidableEq, Repr

/-- The body of a response: `Ok(value)` (`null` for `Ok(None)`) or an error. -/
inductive Reply (V : Type) where
  | ok (v : V)
  | null
  | err (e : Err)
  deriving DecidableEq, Repr

/-- `SchedulableResponse`, server.rs:31-37: rejected before starting, done in place, or a future.
(`MaybeDone::Gone` is never constructed by the helper functions, server.rs:633-648.) -/
inductive Resp (V : Type) where
  | reject (e : Err)
  | done (r : Reply V)
  | future
  deriving DecidableEq, Repr

/-- `ScheduledResult`, server.rs:38-43. -/
inductive Sched where
  | responded
  | needNull
  | needErr (e : Err)
  deriving DecidableEq, Repr

variable {I V : Type} [DecidableEq I]

/-- `Incoming` (req_queue.rs:59-61) plus the spawned tasks and the messages sent so far.
`pending` is the key set of the hash map. -/
structure Queue (I V : Type) where
  pending : List I
  running : List I
  sent : List (I × Reply V)

def Queue.init : Queue I V := ⟨[], [], []⟩

/-- `Incoming::register`, req_queue.rs:74-76 (called from server.rs:291-297). -/
def register (q : Queue I V) (id : I) : Queue I V :=
  { q with pending := if id ∈ q.pending then q.pending else id :: q.pending }

/-- `LspClient::respond`, server.rs:324-339 with `Incoming::complete`, req_queue.rs:107-109. -/
def respond (q : Queue I V) (id : I) (r : Reply V) : Queue I V :=
  if id ∈ q.pending then { q with pending := q.pending.erase id, sent := q.sent ++ [(id, r)] } else q

/-- `LspClient::schedule`, server.rs:344-369. -/
def schedule (q : Queue I V) (id : I) : Resp V → Queue I V × Sched
  | .reject e => (q, .needErr e)
  | .done r => (respond q id r, .responded)
  | .future => ({ q with running := id :: q.running }, .responded)

/-- `LspClient::schedule_tail`, server.rs:372-379. -/
def scheduleTail (q : Queue I V) (id : I) : Sched → Queue I V
  | .responded => q
  | .needNull => respond q id .null
  | .needErr e => respond q id (.err e)

/-- A spawned task finishes: `client.respond_result(req_id, fut.await)`, server.rs:359-361. -/
def complete (q : Queue I V) (id : I) (r : Reply V) : Queue I V :=
  if id ∈ q.running then respond { q with running := q.running.erase id } id r else q

/-- `Incoming::cancel`, req_queue.rs:92-104, with the returned response sent by the caller (a public
operation; `$/cancelRequest` is not wired to it in this commit). -/
def cancel (q : Queue I V) (id : I) : Queue I V := respond q id (.err .requestCanceled)

/-- `State`, server.rs:546-551. -/
inductive Phase where
  | uninitialized | initializing | ready | shuttingDown
  deriving DecidableEq, Repr

/-- What the invoked request handler returns: its parameters do not deserialise (`from_json(req)?`,
lsp_srv.rs:133-160), `client.schedule(..)` of some response, or `Ok(None)` from a raw handler. -/
inductive Act (V : Type) where
  | badParams
  | sched (r : Resp V)
  | okNone
  deriving DecidableEq, Repr

/-- The handler's `ScheduledResult` and its effect on the queue. -/
def runAct (q : Queue I V) (id : I) : Act V → Queue I V × Sched
  | .badParams => (q, .needErr .invalidRequest)
  | .sched r => schedule q id r
  | .okNone => (q, .needNull)

/-- The first argument of `tinymist.getResources`, server.rs:617-630. -/
inductive ResArg where
  | missing | notAPath | unknownPath | known
  deriving DecidableEq, Repr

/-- An incoming request, with the outcomes the driver can observe. `paramsOk`: the parameters
deserialise to what the driver itself expects (`initialize`, `workspace/executeCommand`). -/
structure Request (I V : Type) where
  id : I
  method : String
  paramsOk : Bool := true
  command : String := ""
  res : ResArg := .known
  act : Act V

/-- The registered handlers, `LsDriver`, server.rs:570-588. -/
structure Table where
  requests : String → Bool
  commands : String → Bool
  notifications : String → Bool

/-- The LSP driver.  `handled` logs the notifications whose handler ran, `nextOut`/`outPending` are
`Outgoing` (req_queue.rs:67-70), `issued` logs the requests sent to the client with their handler,
`ran` the handlers run with the response id. -/
structure Lsp (I V H : Type) where
  phase : Phase
  q : Queue I V
  handled : List String
  exited : Bool
  nextOut : Int
  outPending : List (Int × H)
  issued : List (Int × H)
  ran : List (Int × H)

variable {H : Type}

def Lsp.init : Lsp I V H :=
  { phase := .uninitialized, q := Queue.init, handled := [], exited := false, nextOut := 0,
    outPending := [], issued := [], ran := [] }

/-- `on_execute_command`, lsp_srv.rs:333-353, and `get_resources`, server.rs:617-630; `none` is the
index-out-of-bounds panic of `args[0]`. -/
def execCommand (t : Table) (q : Queue I V) (r : Request I V) : Option (Queue I V × Sched) :=
  if ¬ r.paramsOk then some (q, .needErr .invalidParams)
  else if r.command = "tinymist.getResources" then
    match r.res with
    | .missing => none
    | .notAPath => some (q, .needErr .invalidParams)
    | .unknownPath => some (q, .needErr .methodNotFound)
    | .known => some (runAct q r.id r.act)
  else if t.commands r.command then some (runAct q r.id r.act)
  else some (q, .needErr .methodNotFound)

/-- The common tail, lsp_srv.rs:328-329: `schedule` then `schedule_tail`. -/
def finish (q : Queue I V) (id : I) (resp : Resp V) : Queue I V :=
  scheduleTail (schedule q id resp).1 id (schedule q id resp).2

/-- The `reschedule!` macro, lsp_srv.rs:8-18, followed by the common tail. -/
def reschedule (q : Queue I V) (id : I) : Sched → Queue I V
  | .responded => q
  | .needNull => finish q id (.done .null)
  | .needErr e => finish q id (.reject e)

/-- The initializer's response is an arbitrary `AnySchedulableResponse`; taken from the request's
act (`okNone`/`badParams` do not occur there and are read as a null result/an error). -/
def actResp : Act V → Resp V
  | .badParams => .reject .invalidRequest
  | .sched r => r
  | .okNone => .done .null

/-- `on_lsp_request`, lsp_srv.rs:276-330. -/
def onRequest (t : Table) (s : Lsp I V H) (r : Request I V) : Option (Lsp I V H) :=
  let q := register s.q r.id
  let refuse (e : Err) : Option (Lsp I V H) := some { s with q := finish q r.id (.done (.err e)) }
  match s.phase with
  | .uninitialized =>
    if r.method = "initialize" then
      if r.paramsOk then some { s with phase := .initializing, q := finish q r.id (actResp r.act) }
      else refuse .invalidRequest
    else refuse .serverNotInitialized
  | .initializing => refuse .serverNotInitialized
  | .ready =>
    if r.method = "initialize" then refuse .invalidRequest
    else if r.method = "workspace/executeCommand" then
      (execCommand t q r).map fun p => { s with q := reschedule p.1 r.id p.2 }
    else if t.requests r.method then
      let p := runAct q r.id r.act
      some { s with
        q := scheduleTail p.1 r.id p.2
        phase := if r.method = "shutdown" then .shuttingDown else .ready }
    else refuse .methodNotFound
  | .shuttingDown => refuse .invalidRequest

/-- `on_notification`, lsp_srv.rs:356-403, and the exit check of the main loop, lsp_srv.rs:249-255. -/
def onNotification (t : Table) (s : Lsp I V H) (method : String) : Lsp I V H :=
  let phase := if method = "initialized" ∧ s.phase = .initializing then .ready else s.phase
  { s with
    phase
    handled := if phase = .ready ∧ t.notifications method then s.handled ++ [method] else s.handled
    exited := method = "exit" }

/-- `alloc_request_id`/`register`, req_queue.rs:114-126 (`i32` arithmetic wraps in release builds),
called by `send_lsp_request_`, lsp_srv.rs:36-55. -/
def sendRequest (s : Lsp I V H) (h : H) : Lsp I V H :=
  let id := s.nextOut
  { s with
    nextOut := Int.bmod (id + 1) (2 ^ 32)
    outPending := (id, h) :: s.outPending.filter (fun p => p.1 ≠ id)
    issued := s.issued ++ [(id, h)] }

/-- A response from the client: lsp_srv.rs:256-266, `complete_lsp_request`, server.rs:264-272. -/
def onResponse (s : Lsp I V H) (id : Int) : Lsp I V H :=
  if s.phase = .ready then
    match s.outPending.find? (fun p => p.1 = id) with
    | none => s
    | some p =>
      { s with outPending := s.outPending.filter (fun p => p.1 ≠ id), ran := s.ran ++ [p] }
  else s

/-- Everything that can happen, one atomic event at a time.  `request`, `notification` and
`response` are read by the main loop; the others happen on other threads. -/
inductive Event (I V H : Type) where
  | request (r : Request I V)
  | notification (method : String)
  | response (id : Int)
  | complete (id : I) (r : Reply V)
  | cancel (id : I)
  | send (h : H)

/-- The main loop, lsp_srv.rs:205-272, interleaved with other threads.  After `exit` it reads nothing.
`none`: the server panicked. -/
def step (t : Table) (s : Lsp I V H) : Event I V H → Option (Lsp I V H)
  | .request r => if s.exited then some s else onRequest t s r
  | .notification m => some (if s.exited then s else onNotification t s m)
  | .response id => some (if s.exited then s else onResponse s id)
  | .complete id r => some { s with q := complete s.q id r }
  | .cancel id => some { s with q := cancel s.q id }
  | .send h => some (sendRequest s h)

def run (t : Table) (s : Lsp I V H) : List (Event I V H) → Option (Lsp I V H)
  | [] => some s
  | e :: es => (step t s e).bind fun s => run t s es

/-- The value the process's main loop returns (lsp_srv.rs:249-255, 270-271): `Ok(())` both when the
loop ends by `exit` and when the channel closes. -/
def loopResult (_s : Lsp I V H) : Except Unit Unit := .ok ()

/-! ## Debug adapter -/

/-- `req.seq as i32`, dap_srv.rs:184. -/
def seqToId (seq : Int) : Int := Int.bmod seq (2 ^ 32)

/-- The DAP driver (`dap_srv.rs`); requests carry their sequence number as `id`. -/
structure Dap (V : Type) where
  phase : Phase
  q : Queue Int V

def Dap.init : Dap V := ⟨.uninitialized, Queue.init⟩

/-- `on_request`, dap_srv.rs:183-259.  The response carries `RequestId::dap(id)`, msg.rs:22-27, the
truncated number. -/
def Dap.onRequest (t : Table) (s : Dap V) (r : Request Int V) : Dap V :=
  let id := seqToId r.id
  let q := register s.q id
  let refuse (e : Err) : Dap V := { s with q := finish q id (.done (.err e)) }
  match s.phase with
  | .uninitialized =>
    if r.method = "initialize" then
      if r.paramsOk then ⟨.ready, finish q id (actResp r.act)⟩ else refuse .invalidRequest
    else refuse .serverNotInitialized
  | .initializing => refuse .serverNotInitialized
  | .ready =>
    if r.method = "initialize" then refuse .invalidRequest
    else if t.requests r.method then
      let p := runAct q id r.act
      ⟨if r.method = "disconnect" then .shuttingDown else .ready, scheduleTail p.1 id p.2⟩
    else refuse .methodNotFound
  | .shuttingDown => refuse .invalidRequest

inductive DapEvent (V : Type) where
  | request (r : Request Int V)
  | complete (seq : Int) (r : Reply V)

/-- dap_srv.rs:136-179, interleaved with finishing futures. -/
def Dap.step (t : Table) (s : Dap V) : DapEvent V → Dap V
  | .request r => s.onRequest t r
  | .complete seq r => { s with q := Server.complete s.q (seqToId seq) r }

def Dap.run (t : Table) (s : Dap V) (es : List (DapEvent V)) : Dap V := es.foldl (Dap.step t) s

end Tinymist.Server
