import Verif.Model.PreviewRender

/-!
# What the page shows
-/

namespace Tinymist.PreviewRender

variable {D : Type}

/-- The latest document of a history. -/
def latest (view : Option D) : List (Op D) → Option D
  | [] => view
  | .store d :: ops => latest (some d) ops
  | _ :: ops => latest view ops

/-- What the page shows: the last document it was sent. -/
def shown (s : State D) : Option D := s.sent.getLast?

/-- Everything is handled: no request waits, the renderer waits for one, and no compilation is about to announce its
document. -/
def Quiet (s : State D) : Prop := s.queue = [] ∧ s.lagged = false ∧ s.phase = .idle ∧ s.posting = 0

/-- A turn that handles a request for the full document together with the announcement of a new one, or after having
lost requests, for a page that shows a document already. -/
def Turn.Mixed (t : Turn) : Prop :=
  t.had = true ∧ Got.msg .full ∈ t.got ∧ (Got.msg .inc ∈ t.got ∨ Got.lagged ∈ t.got)

/-- The requests that reach the channel in a history; `pending`: the compilations not yet announced. -/
def posted (pending : Nat) : List (Op D) → List Msg
  | [] => []
  | .store _ :: ops => posted (pending + 1) ops
  | .announce :: ops => if pending = 0 then posted 0 ops else .inc :: posted (pending - 1) ops
  | .request m :: ops => m :: posted pending ops
  | .recv :: ops => posted pending ops
  | .tryRecv :: ops => posted pending ops
  | .render :: ops => posted pending ops

def Phase.got : Phase → List Got
  | .idle => []
  | .drain got => got
  | .ready got => got

def Got.msg? : Got → Option Msg
  | .msg m => some m
  | .lagged => none

/-- The requests taken by a turn, the current one included. -/
def taken (s : State D) : List Msg := (s.turns.flatMap Turn.got ++ s.phase.got).filterMap Got.msg?

/-- The requests that were taken by a turn, or will be. -/
def kept (s : State D) : List Msg := taken s ++ s.queue

/-- One turn of the renderer's loop, as far as there is something to do. -/
def round : List (Op D) := [.recv, .tryRecv, .render]

end Tinymist.PreviewRender
