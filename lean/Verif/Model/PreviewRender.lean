/-!
# Rendering for one preview page

Models `CompileWatcher::notify_compile` (`crates/typst-preview/src/lib.rs` 412-444) and
`RenderActor::run` (`crates/typst-preview/src/actor/render.rs` 125-169), with the bounded
broadcast channel between them. Every interleaving of the two is a sequence of `Op`s.
-/

namespace Tinymist.PreviewRender

/-- Requests, by what they mean to the renderer (`is_full_render`, `render.rs` 31-43). `other` stands for all those that
ask for a position. -/
inductive Msg where
  | inc
  | full
  | other
deriving DecidableEq

/-- What one turn of the loop takes from the channel: a request or the notice that requests were lost. -/
inductive Got where
  | msg (m : Msg)
  | lagged
deriving DecidableEq

/-- Where the loop stands: waiting in `recv` (`render.rs` 129), draining the channel (`render.rs` 142-144), or about
to render (`render.rs` 149). -/
inductive Phase where
  | idle
  | drain (got : List Got)
  | ready (got : List Got)
deriving DecidableEq

/-- A turn of the loop: what it took, and whether the page had a document before. -/
structure Turn where
  got : List Got
  had : Bool
deriving DecidableEq

/-- `view`: the latest document made available to the preview; `queue`, `lagged`: the receiving end of the channel;
`current`: the document the incremental renderer holds; `sent`: what was sent to the page, in order; `posting`: number
of compilations whose document is stored and whose request is not yet sent. -/
structure State (D : Type) where
  view : Option D
  queue : List Msg
  lagged : Bool
  phase : Phase
  current : Option D
  sent : List D
  turns : List Turn
  posting : Nat
deriving DecidableEq

variable {D : Type}

/-- A page that connects: its receiver starts empty, its renderer has no document; the document may exist already. -/
def start (view : Option D) : State D := ⟨view, [], false, .idle, none, [], [], 0⟩

inductive Op (D : Type) where
  /-- `*self.doc_sender.write() = Some(view)` (`lib.rs` 430). -/
  | store (d : D)
  /-- `render_tx.send(RenderIncremental)` (`lib.rs` 433). -/
  | announce
  /-- A request of the page or the editor. -/
  | request (m : Msg)
  | recv
  | tryRecv
  | render
deriving DecidableEq

/-- Sending to a `tokio` broadcast channel that keeps `cap` messages (1024, `lib.rs` 208): the oldest is dropped and
the receiver is told. -/
def post (cap : Nat) (s : State D) (m : Msg) : State D :=
  if s.queue.length < cap then { s with queue := s.queue ++ [m] }
  else { s with queue := s.queue.tail ++ [m], lagged := true }

/-- `mailbox.recv().await` (`render.rs` 129-140); waits if there is nothing. -/
def recv (s : State D) : State D :=
  if s.lagged then { s with lagged := false, phase := .drain [.lagged] }
  else match s.queue with
    | [] => s
    | m :: q => { s with queue := q, phase := .drain [.msg m] }

/-- `mailbox.try_recv()` (`render.rs` 142-144); any error, also the notice of lost requests, ends the draining. -/
def tryRecv (s : State D) (got : List Got) : State D :=
  if s.lagged then { s with lagged := false, phase := .ready (got ++ [.lagged]) }
  else match s.queue with
    | [] => { s with phase := .ready got }
    | m :: q => { s with queue := q, phase := .drain (got ++ [.msg m]) }

/-- `has_full_render`. -/
def isFull (got : List Got) : Bool := got.any fun g => match g with
  | .msg .full => true
  | _ => false

/-- `pack_current`, `pack_delta` (`render.rs` 154-162). A packed delta or document is identified with the document the
page shows once it has applied it. -/
def pack (s : State D) (got : List Got) (d : D) : D :=
  if isFull got then s.current.getD d else d

/-- The rest of the turn (`render.rs` 145-167). -/
def render (s : State D) (got : List Got) : State D :=
  match s.view with
  | none => { s with phase := .idle, turns := s.turns ++ [⟨got, s.current.isSome⟩] }
  | some d =>
    { s with
      phase := .idle
      turns := s.turns ++ [⟨got, s.current.isSome⟩]
      current := some (pack s got d)
      sent := s.sent ++ [pack s got d] }

def step (cap : Nat) (s : State D) (op : Op D) : State D :=
  match op with
  | .store d => { s with view := some d, posting := s.posting + 1 }
  | .announce => if s.posting = 0 then s else { post cap s .inc with posting := s.posting - 1 }
  | .request m => post cap s m
  | .recv => match s.phase with
    | .idle => recv s
    | _ => s
  | .tryRecv => match s.phase with
    | .drain got => tryRecv s got
    | _ => s
  | .render => match s.phase with
    | .ready got => render s got
    | _ => s

def run (cap : Nat) (view : Option D) (ops : List (Op D)) : State D := ops.foldl (step cap) (start view)

/-- `RefreshStyle`. -/
inductive Style where
  | onSave
  | onType
deriving DecidableEq

/-- What `notify_compile` does with a compilation (`lib.rs` 412-444): whether its document is stored and announced, and
whether the editor is told the status. `success`: the compilation has a document. -/
def notify (style : Style) (byEntry onSaved success : Bool) : Bool × Bool :=
  if !byEntry && (style = .onSave && !onSaved) then (false, false)
  else if success then (true, true)
  else (false, true)

end Tinymist.PreviewRender
