import Verif.Model.Framing
import Verif.Model.Pages
/-!
# Profiling a document in another process

Models the request that profiles a document: the command line it runs, what the other process reads
from that command line, how the answer is collected, and the web server the other process may start.

Cited: `crates/tinymist/src/task/user_action.rs`, `crates/tinymist/src/main.rs`,
`crates/tinymist-world/src/args.rs`.
-/
namespace Tinymist.Trace
open Framing Pages

abbrev Text := List Char

/-! ## The command line -/

/-- A value among the inputs of a document. Simplified: everything that is not a string is `other`. -/
inductive Value where
  | str (s : Text)
  | other
  deriving DecidableEq, Repr

/-- `TraceParams` (user_action.rs:27-40), without the program to run. Paths are texts. -/
structure Params where
  root : Text
  main : Text
  inputs : List (Text × Value)
  fonts : List Text
  rpc : Text
  deriving DecidableEq, Repr

/-- The arguments for inputs (user_action.rs:78-83); `none` is `bail!`. -/
def inputArgs : List (Text × Value) → Option (List Text)
  | [] => some []
  | (k, .str s) :: rest => (inputArgs rest).map fun as => ("--input=".toList ++ k ++ '=' :: s) :: as
  | (_, .other) :: _ => none

/-- The arguments for fonts (user_action.rs:84-86). -/
def fontArgs (fonts : List Text) : List Text := fonts.map fun p => "--font-path=".toList ++ p

/-- `run_trace_program`, the command line (user_action.rs:63-86) after `trace-lsp`. -/
def argsOf (p : Params) : Option (List Text) :=
  (inputArgs p.inputs).map fun ins =>
    ["--rpc-kind".toList, p.rpc, "--root".toList, p.root, p.main] ++ ins ++ fontArgs p.fonts

/-- What the other process has read so far from its arguments: `TraceLspArgs` with `CompileOnceArgs`
(args.rs:56-110), only the fields given by the command line above. -/
structure Seen where
  rpc : Option Text
  root : Option Text
  main : Option Text
  inputs : List (Text × Text)
  fonts : List Text
  deriving DecidableEq, Repr

/-- Nothing read yet. -/
def Seen.empty : Seen := ⟨none, none, none, [], []⟩

/-- `str::split_once('=')` (standard library). -/
def splitEq : Text → Option (Text × Text)
  | [] => none
  | c :: cs => if c = '=' then some ([], cs) else (splitEq cs).map fun (a, b) => (c :: a, b)

/-- `parse_input_pair` (args.rs:195-205); `none` is an error. -/
def parsePair (raw : Text) : Option (Text × Text) :=
  match splitEq raw with
  | none => none
  | some (k, v) => if trim k = [] then none else some (trim k, trim v)

/-- `str::strip_prefix` (standard library). -/
def stripPrefix (pre s : Text) : Option Text :=
  if pre.isPrefixOf s then some (s.drop pre.length) else none

/-- The part of clap that reads these arguments (contract of the library): options with their value in
the next argument may not be followed by something that begins with a hyphen, an option given once may
not be repeated, font paths are cut at the separator of paths (args.rs:21-28, `:`; `;` on Windows), and
other options are refused. -/
def readArgs (sep : Char) : Seen → List Text → Option Seen
  | s, [] => some s
  | s, a :: rest =>
    if a = "--rpc-kind".toList then
      match rest with
      | [] => none
      | v :: rest => if v.head? = some '-' ∨ s.rpc.isSome then none else readArgs sep { s with rpc := some v } rest
    else if a = "--root".toList then
      match rest with
      | [] => none
      | v :: rest => if v.head? = some '-' ∨ s.root.isSome then none else readArgs sep { s with root := some v } rest
    else match stripPrefix "--input=".toList a with
    | some raw =>
      match parsePair raw with
      | none => none
      | some kv => readArgs sep { s with inputs := s.inputs ++ [kv] } rest
    | none =>
      match stripPrefix "--font-path=".toList a with
      | some ps => readArgs sep { s with fonts := s.fonts ++ split sep ps } rest
      | none =>
        if a.head? = some '-' ∨ s.main.isSome then none
        else readArgs sep { s with main := some a } rest

/-! ## Collecting the answer -/

/-- The thread that reads what the program writes: what is left to read, whether the answer has come,
the messages collected, and whether the collecting has ended. -/
structure Reader where
  rest : List Nat
  answered : Bool
  got : List Text
  ended : Bool
  deriving DecidableEq, Repr

/-- One call of the closure of `from_fn`, and `flatten` and `collect` (user_action.rs:103-118). `parse`
tells whether a text is a message, and then whether it is the response to request 0. At the end of the
output `Message::read` gives `Ok(None)`, the closure gives `Some(None)`, and nothing is collected. -/
def Reader.step (parse : Text → Option Bool) (r : Reader) : Reader :=
  if r.ended then r
  else if r.answered then { r with ended := true }
  else
    match readMsg r.rest with
    | .eof => r
    | .err => { r with ended := true }
    | .msg t rest =>
      match parse t with
      | none => { r with ended := true }
      | some b => { r with rest := rest, answered := b, got := r.got ++ [t] }

/-- So many calls of the closure. -/
def Reader.run (parse : Text → Option Bool) : Nat → Reader → Reader
  | 0, r => r
  | n + 1, r => Reader.run parse n (r.step parse)

/-- The thread at its start, over all the program will ever write. -/
def Reader.start (output : List Nat) : Reader := ⟨output, false, [], false⟩

/-- The report (user_action.rs:136-144): the messages, and a standard error that is encoded from an
empty string. Reported once the collecting has ended. -/
def reportOf (r : Reader) : Option (List Text × Text) := if r.ended then some (r.got, []) else none

/-! ## The other process -/

/-- What happened when the document was compiled, with its diagnostics. -/
structure Compiled where
  ok : Bool
  errors : List Text
  warnings : List Text
  deriving DecidableEq, Repr

/-- What the other process writes. -/
inductive Sent where
  | diagnostics (ds : List Text)
  | data (timings : List Nat)
  | url
  deriving DecidableEq, Repr

/-- `trace_main` (user_action.rs:153-222): what is sent, and whether the process panics. -/
def traceMain (c : Compiled) (timings : List Nat) (rpc : Text) : List Sent × Bool :=
  let ds := Sent.diagnostics (if c.ok then c.warnings else c.errors)
  if rpc = "lsp".toList then ([ds, .data timings], false)
  else if rpc = "http".toList then ([ds, .url], false)
  else ([ds], true)

/-- All the other process writes, given its arguments (main.rs:188-258): nothing if they are refused or if
the main file is not within the root. `enc` is how a message is written as JSON; `inside root main` is
`Path::starts_with` after both were made absolute. -/
def childOutput (sep : Char) (inside : Text → Text → Bool) (enc : Sent → Text) (c : Compiled)
    (timings : List Nat) (args : List Text) : List Nat :=
  match readArgs sep Seen.empty args with
  | none => []
  | some s =>
    match s.main, s.rpc with
    | some main, some rpc =>
      if inside (s.root.getD ".".toList) main then (traceMain c timings rpc).1.flatMap fun m => writeMsg (enc m)
      else []
    | _, _ => []

/-! ## The web server -/

/-- A request to the server: the `Origin` header as bytes, the path, and whether it is `HEAD`. -/
structure Req where
  origin : Option (List Nat)
  path : Text
  head : Bool
  deriving DecidableEq, Repr

/-- An answer: the status, the allowed origin, the type of the contents, where to go instead, the body. -/
structure Ans where
  status : Nat
  allow : List Nat
  type : Option Text
  location : Option Text
  body : List Nat
  deriving DecidableEq, Repr

/-- `vscode-webview://` as bytes. -/
def webview : List Nat := "vscode-webview://".toList.map Char.toNat

/-- The service (user_action.rs:239-282); `none` is the error that breaks the connection. -/
def serve (timings : List Nat) (r : Req) : Option Ans :=
  match r.origin.filter fun o => webview.isPrefixOf o with
  | none => none
  | some o =>
    if r.path = "/".toList then
      if r.head then some ⟨200, o, none, none, []⟩
      else some ⟨200, o, some "application/json".toList, none, timings⟩
    else some ⟨302, o, none, some "/".toList, []⟩

/-- The loop that waits for activity (user_action.rs:336-358): when it ends, in milliseconds, given when
it last began to wait and the requests to come with their times. Every request is activity, sent before
the origin is looked at (user_action.rs:241). Simplified: interruption by the user is left out, and a
request at the very moment of the timeout comes too late. -/
def stopAt : Nat → List (Nat × Req) → Nat
  | t, [] => t + 15000
  | t, (x, _) :: rest => if x < t + 15000 then stopAt x rest else t + 15000

end Tinymist.Trace
