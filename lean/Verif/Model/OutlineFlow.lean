/-!
# Keeping the outline in the editor up to date

Models `OutlineRenderActor::run` (crates/typst-preview/src/actor/render.rs:334-363) and `outline` (365-372) with `CompileWatcher::notify_compile`
(crates/typst-preview/src/lib.rs:412-444), which stores a document and then announces it on a bounded broadcast channel. Every interleaving of the
two, with any requests of pages on the same channel, is a list of `Op`s.

Simplified: requests carry nothing that is looked at, so that of the channel only the number of waiting requests is kept. An outline is identified
with the document it is of. That the editor goes away is left out, and so are further pages, which have loops of their own (lib.rs:133-139).
-/

namespace Tinymist.OutlineFlow

/-- Where the loop stands: waiting in `recv` (render.rs:337), reading the queue to empty (349), about to look for a document (352), or with an
outline to send (358). -/
inductive Phase (D : Type) where
  | idle
  | drain
  | ready
  | built (d : D)
  deriving DecidableEq, Repr

/-- `view`: the document that is stored; `queue`, `lagged`: the receiving end of the channel; `interned`: the document whose places the interner
keeps; `sent`: the outlines that were sent to the editor; `posting`: documents stored and not yet announced. -/
structure State (D : Type) where
  view : Option D
  queue : Nat
  lagged : Bool
  phase : Phase D
  interned : Option D
  sent : List D
  posting : Nat
  deriving DecidableEq, Repr

variable {D : Type}

/-- A page connects (lib.rs:133-139): the loop starts with an empty channel, and there may be a document already. -/
def start (view : Option D) : State D := ⟨view, 0, false, .idle, none, [], 0⟩

inductive Op (D : Type) where
  /-- `*self.doc_sender.write() = Some(view)` (lib.rs:430). -/
  | store (d : D)
  /-- `render_tx.send(RenderIncremental)` (lib.rs:433). -/
  | announce
  /-- A request of a page or the editor, on the same channel. -/
  | request
  | recv
  | tryRecv
  | outline
  | send
  deriving DecidableEq, Repr

/-- Sending on a broadcast channel that keeps `cap` messages (lib.rs:208): beyond that the oldest is dropped and the receiver is told. -/
def post (cap : Nat) (s : State D) : State D := if s.queue < cap then { s with queue := s.queue + 1 } else { s with lagged := true }

/-- `signal.recv().await` (render.rs:337-347): what comes, also the notice of lost messages, goes on; waits if there is nothing. -/
def recv (s : State D) : State D :=
  if s.lagged then { s with lagged := false, phase := .drain }
  else if s.queue = 0 then s
  else { s with queue := s.queue - 1, phase := .drain }

/-- `signal.try_recv().is_ok()` (render.rs:349): an error, also the notice of lost messages, ends the reading. -/
def tryRecv (s : State D) : State D :=
  if s.lagged then { s with lagged := false, phase := .ready }
  else if s.queue = 0 then { s with phase := .ready }
  else { s with queue := s.queue - 1 }

/-- The document is looked for, and its outline made (render.rs:352-356, 365-372); the interner is reset for it. -/
def outline (s : State D) : State D :=
  match s.view with
  | none => { s with phase := .idle }
  | some d => { s with phase := .built d, interned := some d }

def step (cap : Nat) (s : State D) : Op D → State D
  | .store d => { s with view := some d, posting := s.posting + 1 }
  | .announce => if s.posting = 0 then s else { post cap s with posting := s.posting - 1 }
  | .request => post cap s
  | .recv =>
    match s.phase with
    | .idle => recv s
    | _ => s
  | .tryRecv =>
    match s.phase with
    | .drain => tryRecv s
    | _ => s
  | .outline =>
    match s.phase with
    | .ready => outline s
    | _ => s
  | .send =>
    match s.phase with
    | .built d => { s with phase := .idle, sent := s.sent ++ [d] }
    | _ => s

def run (cap : Nat) (view : Option D) (ops : List (Op D)) : State D := ops.foldl (step cap) (start view)

end Tinymist.OutlineFlow
