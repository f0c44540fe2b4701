import Verif.Model.Breakpoint

/-!
# Debugging

Models the requests of the debug adapter (`crates/tinymist/src/dap/request.rs:20-243`, `crates/tinymist/src/dap.rs:19-46`)
and the thread of a debugged compilation (`crates/tinymist-dap/src/lib.rs:62-236`).

Simplified: the files of a project are a map from names to texts; the entry resolver and Typst's evaluation are parameters;
the names and texts of events other than what is given here are left out.
-/
namespace Tinymist.Debugging

abbrev Name := String
abbrev Files := Name → Option String

/-- `LaunchDebugArguments` (request.rs:160-169). -/
structure Args where
  program : Name
  root : Name
  stopOnEntry : Option Bool
  deriving DecidableEq, Repr

/-- `ProcessEventStartMethod`. -/
inductive Method where
  | launch
  | attach
  deriving DecidableEq, Repr

/-- `DebugSession` (dap.rs:32-46): the snapshot is the files at the time, with the main file. -/
structure Session where
  files : Files
  main : Name
  text : String
  /-- `position`, the end of the text -/
  position : Nat
  stopOnEntry : Bool

/-- The events that are sent to the client. -/
inductive Sent where
  | process (m : Method)
  | threadStarted (id : Nat)
  | stopped (id : Nat)
  | terminated
  deriving DecidableEq, Repr

/-- The answers to requests. -/
inductive Reply where
  | ok
  | threads (ids : List Nat)
  | value (repr ty : String)
  | targets (ts : List String)
  | refused
  deriving DecidableEq, Repr

/-- Requests, and the edits that happen in between. The arguments of a launch are `none` if they cannot be read. -/
inductive Req where
  | start (m : Method) (args : Option Args)
  | configurationDone
  | disconnect
  | terminate
  | terminateThreads (ids : Option (List Nat))
  | threads
  | evaluate (expr : String)
  | completions
  | edit (f : Name) (text : Option String)
  deriving DecidableEq, Repr

/-- The surroundings. -/
structure Env where
  /-- `entry_resolver().resolve_with_root(root, program)`, then `main_id` -/
  entry : Name → Name → Option Name
  /-- `eval_compat` of the source, then `eval_string` of the expression at a place in it: the representation of the value
  and of its type; `none` is an error. -/
  eval : Files → Name → String → Nat → String → Option (String × String)

structure State where
  files : Files
  session : Option Session

/-- `launch_debug_` (request.rs:86-152). `none` is the panic. -/
def launch (env : Env) (s : State) (m : Method) : Option Args → Option (State × Reply × List Sent)
  | none => none
  | some a =>
    match env.entry a.root a.program with
    | none => some (s, .refused, [])
    | some main =>
      match s.files main with
      | none => some (s, .refused, [])
      | some text =>
        some ({ s with session := some ⟨s.files, main, text, text.utf8ByteSize, a.stopOnEntry.getD false⟩ }, .ok,
          [.process m, .threadStarted 1, .stopped 1])

/-- `terminate_debug_thread` (request.rs:55-68). -/
def terminateThreads (s : State) (ids : Option (List Nat)) : State :=
  match ids with
  | none => s
  | some ids => if ids.isEmpty then s else if ids.all (· == 1) then { s with session := none } else s

/-- `evaluate_repl` (request.rs:187-219). -/
def evaluate (env : Env) (s : State) (expr : String) : Reply :=
  match s.session with
  | none => .refused
  | some d =>
    match env.eval d.files d.main d.text d.position expr with
    | none => .refused
    | some (r, t) => .value r t

/-- One request (request.rs:20-243). `none` is a panic. -/
def step (env : Env) (s : State) : Req → Option (State × Reply × List Sent)
  | .start m args => launch env s m args
  | .configurationDone => some (s, .ok, [])
  | .disconnect => some ({ s with session := none }, .ok, [])
  | .terminate => some ({ s with session := none }, .ok, [.terminated])
  | .terminateThreads ids => some (terminateThreads s ids, .ok, [])
  | .threads => some (s, .threads [1], [])
  | .evaluate e => some (s, evaluate env s e, [])
  | .completions => some (s, (if s.session.isSome then .targets [] else .refused), [])
  | .edit f t => some ({ s with files := fun g => if g = f then t else s.files g }, .ok, [])

/-- A history of requests: the state after it. -/
def run (env : Env) (s : State) : List Req → Option State
  | [] => some s
  | r :: rs =>
    match step env s r with
    | none => none
    | some (s', _) => run env s' rs

/-! ## The thread of a debugged compilation -/

/-- `DebugRequest` (tinymist-dap lib.rs:43-48). -/
inductive Ask where
  | evaluate (id : Int) (expr : String)
  | goOn
  deriving DecidableEq, Repr

/-- The calls of the adaptor (lib.rs:51-62), `C` being the places where a program stops and `R` results. -/
inductive Call (C R : Type) where
  | beforeCompile
  | stopped (c : C)
  | respond (id : Int) (r : R)
  | afterCompile
  | terminate
  deriving DecidableEq, Repr

/-- What evaluation does at a place: `none` if it comes to a breakpoint that is switched on itself, where
`RESOURCES.lock()` (lib.rs:224) waits for the lock that the thread has already (lib.rs:121 and 224). -/
abbrev Eval (C R : Type) := C → String → Option R

variable {C R : Type}

/-- The loop of `step` (lib.rs:195-212): the calls, what is left of the requests, and whether it came to an end. The
requests are all that are ever sent; after them the channel is closed. -/
def serve (ev : Eval C R) (c : C) : List Ask → List (Call C R) × List Ask × Bool
  | [] => ([], [], true)
  | .evaluate id e :: rs =>
    match ev c e with
    | none => ([], rs, false)
    | some r =>
      match serve ev c rs with
      | (calls, rest, done) => (.respond id r :: calls, rest, done)
  | .goOn :: rs => ([], rs, true)

/-- `step` at one stop after the other. -/
def stops (ev : Eval C R) : List C → List Ask → List (Call C R) × List Ask × Bool
  | [], rs => ([], rs, true)
  | c :: cs, rs =>
    match serve ev c rs with
    | (calls, rest, false) => (.stopped c :: calls, rest, false)
    | (calls, rest, true) =>
      match stops ev cs rest with
      | (calls', rest', done) => (.stopped c :: calls ++ calls', rest', done)

/-- The thread of `start_session` (lib.rs:72-93), where the compilation stops at the places `cs`; `first` and `last` are the
stops before and after it. Whether the session was accepted is given. -/
def thread (ev : Eval C R) (accepted : Bool) (first : C) (cs : List C) (last : C) (rs : List Ask) : List (Call C R) :=
  if accepted then
    match stops ev (first :: cs) rs with
    | (calls, _, false) => .beforeCompile :: calls
    | (calls, rest, true) =>
      match stops ev [last] rest with
      | (calls', _, false) => .beforeCompile :: calls ++ .afterCompile :: calls'
      | (calls', _, true) => .beforeCompile :: calls ++ .afterCompile :: calls' ++ [.terminate]
  else [.terminate]

end Tinymist.Debugging
