import Verif.Model.PreviewEditor

/-!
# What the editor and the webview may expect
-/

namespace Tinymist.PreviewEditor

variable {D S : Type} [DecidableEq S]

/-- The spans interned by a history. -/
def spansAfter (es : List (Event D S)) : Interner.State S :=
  Interner.run (Interner.init S) (es.filterMap fun e => match e with | .interner op => some op | _ => none)

/-- What a span id of a history stands for. -/
def known (es : List (Event D S)) (span : List Char) : Option S :=
  match Interner.spanByStr (spansAfter es) span with
  | some (.ok x) => x
  | _ => none

/-- What each message asks for, after a history. -/
def asked (before : List (Event D S)) : Event D S → List (Output D S)
  | .mailbox .shutdown => []
  | .mailbox (.jump d) => [.editorScroll d]
  | .mailbox (.outline d) => [.editorOutline d]
  | .mailbox (.status d) => [.editorStatus d]
  | .mailbox (.jumpResolve span) => (known before span).toList.map .renderSpan
  | .control (.cursor d) => [.renderCursor d]
  | .control (.sourceLoc d) => [.renderSourceLoc d]
  | .control (.panelScroll d) => [.webviewPosition d]
  | .control (.jumpResolve span) => (known before span).toList.map .renderSpan
  | .control (.syncFiles d) => [.serverSync d]
  | .control (.updateFiles d) => [.serverUpdate d]
  | .control (.removeFiles d) => [.serverRemove d]
  | .interner _ => []
  | .gone => []
  | .noInput => []

/-- What a history asks for. -/
def allAsked (before : List (Event D S)) : List (Event D S) → List (Output D S)
  | [] => []
  | e :: es => asked before e ++ allAsked (before ++ [e]) es

/-- The editor has gone away. -/
def Gone (before : List (Event D S)) : Prop := Event.gone ∈ before

/-- The reasons for which the connection ends. The first three are proper: it is
told to, the editor has gone when there is something to tell it, or nothing can
come in any more. -/
inductive Ends (before : List (Event D S)) : Event D S → Prop
  | shutdown : Ends before (.mailbox .shutdown)
  | gone (r) (h : Gone before) (hr : (∃ d, r = .jump d) ∨ (∃ d, r = .outline d) ∨ (∃ d, r = .status d)) :
      Ends before (.mailbox r)
  | noInput : Ends before .noInput
  | webviewJump (span) : Ends before (.mailbox (.jumpResolve span))
  | malformed (span) (h : Interner.InternId.fromHex span = none) : Ends before (.control (.jumpResolve span))

end Tinymist.PreviewEditor
