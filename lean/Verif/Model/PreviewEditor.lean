import Verif.Model.Interner

/-!
# The preview's connection to the editor

Models `EditorActor::run` and `source_scroll_by_span`
(`crates/typst-preview/src/actor/editor.rs` 171-284). A run is a sequence of the
messages that `tokio::select!` receives, in the order it receives them, mixed
with what happens outside: outlines being interned, the editor going away.
-/

namespace Tinymist.PreviewEditor

/-- `EditorActorRequest` (`editor.rs` 37-44). The payloads `D` (of jumps, outlines
and states) are passed on as they are. -/
inductive Request (D : Type) where
  | shutdown
  | jumpResolve (span : List Char)
  | jump (d : D)
  | outline (d : D)
  | status (d : D)
deriving DecidableEq

/-- `ControlPlaneMessage` (`editor.rs` 119-137). -/
inductive Message (D : Type) where
  | cursor (d : D)
  | sourceLoc (d : D)
  | panelScroll (d : D)
  | jumpResolve (span : List Char)
  | syncFiles (d : D)
  | updateFiles (d : D)
  | removeFiles (d : D)
deriving DecidableEq

/-- What the loop does: responses to the editor (`ControlPlaneResponse`,
`editor.rs` 139-150), requests to the renderer and the webviews, and calls of
the server. `S` is the type of spans. -/
inductive Output (D S : Type) where
  | editorScroll (d : D)
  | editorOutline (d : D)
  | editorStatus (d : D)
  | syncEditor
  | renderCursor (d : D)
  | renderSourceLoc (d : D)
  | renderSpan (s : S)
  | webviewPosition (d : D)
  | serverSync (d : D)
  | serverUpdate (d : D)
  | serverRemove (d : D)
deriving DecidableEq

/-- `running`; `ended` after the loop breaks; `panicked`. In standalone mode the
end of the loop ends the process (`editor.rs` 260-263). -/
inductive Status where
  | running
  | ended
  | processExit
  | panicked
deriving DecidableEq

/-- What happens. `gone`: the receiver of the responses is dropped. `noInput`: both
sources of messages are closed and drained. -/
inductive Event (D S : Type) where
  | mailbox (r : Request D)
  | control (m : Message D)
  | interner (op : Interner.Op S)
  | gone
  | noInput
deriving DecidableEq

structure State (D S : Type) where
  status : Status
  standalone : Bool
  open_ : Bool
  spans : Interner.State S
  out : List (Output D S)

variable {D S : Type}

/-- The start of `run` (`editor.rs` 171-174). -/
def start (standalone : Bool) : State D S :=
  ⟨.running, standalone, true, Interner.init S, if standalone then [.syncEditor] else []⟩

/-- `break` and what follows the loop (`editor.rs` 258-263). -/
def leave (s : State D S) : State D S :=
  { s with status := if s.standalone then .processExit else .ended }

/-- `resp_ctl_plane` (`editor.rs` 94-101), followed by `if !sent { break; }`
(`editor.rs` 213-215). -/
def respond (s : State D S) (o : Output D S) : State D S :=
  if s.open_ then { s with out := s.out ++ [o] } else leave s

/-- `source_scroll_by_span` (`editor.rs` 266-284); `from_hex` panics on anything
but a hexadecimal number (`debug_loc.rs` 41-43). -/
def scrollBySpan (s : State D S) (span : List Char) : State D S :=
  match Interner.spanByStr s.spans span with
  | none => { s with status := .panicked }
  | some .useAfterFree => s
  | some (.ok none) => s
  | some (.ok (some x)) => { s with out := s.out ++ [.renderSpan x] }

/-- The first branch of the loop (`editor.rs` 178-216). -/
def onRequest (s : State D S) : Request D → State D S
  | .shutdown => leave s
  | .jump d => respond s (.editorScroll d)
  | .jumpResolve span =>
    let s := scrollBySpan s span
    if s.status = .panicked then s else leave s
  | .status d => respond s (.editorStatus d)
  | .outline d => respond s (.editorOutline d)

/-- The second branch (`editor.rs` 217-255). Failures of sends and of the server
are logged only. -/
def onMessage (s : State D S) : Message D → State D S
  | .cursor d => { s with out := s.out ++ [.renderCursor d] }
  | .sourceLoc d => { s with out := s.out ++ [.renderSourceLoc d] }
  | .panelScroll d => { s with out := s.out ++ [.webviewPosition d] }
  | .jumpResolve span => scrollBySpan s span
  | .syncFiles d => { s with out := s.out ++ [.serverSync d] }
  | .updateFiles d => { s with out := s.out ++ [.serverUpdate d] }
  | .removeFiles d => { s with out := s.out ++ [.serverRemove d] }

variable [DecidableEq S]

/-- One turn. `tokio::select!` panics when all branches are disabled and there is
no `else`. -/
def step (s : State D S) (e : Event D S) : State D S :=
  match e with
  | .interner op => { s with spans := Interner.step s.spans op }
  | .gone => { s with open_ := false }
  | .mailbox r => if s.status = .running then onRequest s r else s
  | .control m => if s.status = .running then onMessage s m else s
  | .noInput => if s.status = .running then { s with status := .panicked } else s

def run (standalone : Bool) (es : List (Event D S)) : State D S := es.foldl step (start standalone)

end Tinymist.PreviewEditor
