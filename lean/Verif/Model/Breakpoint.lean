import Verif.Model.Coverage

/-!
# Breakpoints

Models crates/tinymist-debug/src/debugger/instr.rs, which rewrites a file so that it asks for breakpoints, and the debug
session of crates/tinymist-debug/src/debugger.rs. The syntax tree is that of `Model/Coverage.lean`.
-/

namespace Tinymist.Breakpoint

open Tinymist.Coverage (Node Role firstSpan lastSpan)

/-- The kinds that the rewriting makes (debugger.rs:21-52 has more). -/
inductive Kind where
  | blockStart
  | blockEnd
  | showStart
  deriving DecidableEq, Repr

/-- `BreakpointKind::to_str` (debugger.rs:55-75). -/
def Kind.toStr : Kind → String
  | .blockStart => "block_start"
  | .blockEnd => "block_end"
  | .showStart => "show_start"

/-- A piece of the rewritten text: copied, added, or a breakpoint. The worker's buffer is one string; `render` makes it. -/
inductive Piece where
  | src (text : String)
  | glue (text : String)
  | point (kind : Kind) (n : Nat)
  deriving DecidableEq, Repr

/-- The text of a breakpoint (instr.rs:161-175). -/
def pointText (kind number : String) : String :=
  "if __breakpoint_" ++ kind ++ "(" ++ number ++ ") {" ++ "__breakpoint_" ++ kind ++ "_handle(" ++ number
    ++ ", (:)); " ++ "};\n"

/-- The text of a piece; a breakpoint is what `make_cov` writes (instr.rs:161-175). -/
def Piece.render : Piece → String
  | .src t => t
  | .glue t => t
  | .point k n =>
    pointText k.toStr (toString n)

/-- `InstrumentWorker` (instr.rs:36-39); `meta` has the span of each breakpoint. -/
structure Worker where
  out : List Piece
  places : List Nat
  deriving DecidableEq, Repr

/-- `self.instrumented.push_str`. -/
def emit (p : Piece) (w : Worker) : Worker := { w with out := w.out ++ [p] }

/-- The first half of `visit_node_fallback` (instr.rs:150-154). -/
def copy (text : String) (w : Worker) : Worker := if text = "" then w else emit (.src text) w

/-- `make_cov` (instr.rs:161-175). -/
def makeCov (span : Nat) (kind : Kind) (w : Worker) : Worker :=
  { out := w.out ++ [.point kind w.places.length], places := w.places ++ [span] }

mutual
/-- `visit_node` (instr.rs:52-148). A show rule is treated alike whatever it does; a `context` expression is no special
case. -/
def visit : Node → Worker → Worker
  | .mk _ role b1 b2 text cs, w =>
    match role with
    | .code =>
      emit (.glue "}\n") (makeCov (lastSpan cs) .blockEnd (emit (.glue "\n")
        (visitAll cs (copy text (makeCov (firstSpan cs) .blockStart (emit (.glue "{\n") w))))))
    | .loop => bodies b1 0 cs w
    | .cond => bodies b1 b2 cs w
    | .closure => bodies b1 0 cs w
    | .showSet => functors b1 cs w
    | .showFn => functors b1 cs w
    | .context => visitAll cs (copy text w)
    | .trivia => visitAll cs (copy text w)
    | .other => visitAll cs (copy text w)
/-- The loop of `visit_node_fallback` (instr.rs:156-158). -/
def visitAll : List Node → Worker → Worker
  | [], w => w
  | c :: cs, w => visitAll cs (visit c w)
/-- `instrument_block_child` (instr.rs:42-50). -/
def bodies (b1 b2 : Nat) : List Node → Worker → Worker
  | [], w => w
  | c :: cs, w =>
    if b1 = c.span ∨ b2 = c.span then bodies b1 b2 cs (block c w)
    else bodies b1 b2 cs (visit c w)
/-- `instrument_block` (instr.rs:177-197). -/
def block : Node → Worker → Worker
  | .mk _ _ _ _ text cs, w =>
    emit (.glue "}\n") (makeCov (lastSpan cs) .blockEnd (emit (.glue "\n")
      (visitAll cs (copy text (makeCov (firstSpan cs) .blockStart (emit (.glue "{\n") w))))))
/-- The loop over the children of a show rule (instr.rs:82-93). -/
def functors (b : Nat) : List Node → Worker → Worker
  | [], w => w
  | c :: cs, w => if b = c.span then functors b cs (functor c w) else functors b cs (visit c w)
/-- `instrument_functor` (instr.rs:199-206). -/
def functor : Node → Worker → Worker
  | .mk sp _ _ _ text cs, w =>
    emit (.glue "__bp_functor(__it); } }\n") (makeCov sp .showStart (emit (.glue "\n__it => {")
      (visitAll cs (copy text (emit (.glue "{\nlet __bp_functor = ") w)))))
end

/-- `instrument_breakpoints` (instr.rs:22-34). -/
def instrument (root : Node) : Worker := visit root ⟨[], []⟩

/-- The functions that the rewritten program can call (debugger.rs:213-319, those of the kinds above): the kind they are
for, and whether they are the handler. -/
def functions : List (String × Kind × Bool) :=
  [("__breakpoint_block_start", .blockStart, false), ("__breakpoint_block_start_handle", .blockStart, true),
   ("__breakpoint_block_end", .blockEnd, false), ("__breakpoint_block_end_handle", .blockEnd, true),
   ("__breakpoint_show_start", .showStart, false), ("__breakpoint_show_start_handle", .showStart, true)]

/-! ### Sessions -/

/-- `DebugSession` (debugger.rs:103-110): the breakpoints that are switched on, and the places of the files that were
rewritten. -/
structure Session where
  enabled : List (Nat × Nat × Kind)
  breakpoints : List (Nat × List Nat)
  deriving DecidableEq, Repr

/-- `set_debug_session` (debugger.rs:132-141): whether it was set, and the session there is then. -/
def setSession (current new : Option Session) : Bool × Option Session :=
  if new.isSome then (false, current) else (true, new)

/-- `BreakpointInstr::instrument` (instr.rs:7-20): without a session the file cannot be read. `none` is the error. -/
def instrumentFile (session : Option Session) (file : Nat) (root : Node) : Option (Worker × Session) :=
  session.map fun s => (instrument root, { s with breakpoints := (file, (instrument root).places) :: s.breakpoints })

/-- `check_soft_breakpoint` (debugger.rs:144-152) as the rewritten program sees it. -/
def check (session : Option Session) (file id : Nat) (kind : Kind) : Bool :=
  match session with
  | none => false
  | some s => decide ((file, id, kind) ∈ s.enabled)

/-- `soft_breakpoint_handle` (debugger.rs:155-189): the span the handler is called with, if it is. -/
def handle (session : Option Session) (file id : Nat) (kind : Kind) : Option Nat :=
  match session with
  | none => none
  | some s =>
    if (file, id, kind) ∈ s.enabled then
      match s.breakpoints.lookup file with
      | none => none
      | some places => places[id]?
    else none

/-- A program that passes a breakpoint: the text of `make_cov` asks, and calls the handler if the answer is yes. -/
def pass (session : Option Session) (file id : Nat) (kind : Kind) : Option Nat :=
  if check session file id kind then handle session file id kind else none

/-- What a process does with the session: `start_session` of crates/tinymist-dap/src/lib.rs:62-93 sets one, and, if that
worked, takes it away at the end. Every call of the list is one attempt to set a session or to end it. -/
def sessions (calls : List (Option Session)) (s : Option Session) : Option Session :=
  calls.foldl (fun s c => (setSession s c).2) s

end Tinymist.Breakpoint
