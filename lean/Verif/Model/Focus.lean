/-!
# Which file is the main file of the language server

Paths are of a type `P`; `valid p` says that `p` is absolute or starts with
`/untitled` (`crates/tinymist/src/input.rs` 108-113). The main file of the
primary project is recorded as the path handed to `resolve_task_or`; how that
path becomes an entry is the subject of `Entry` and `Routes`. The result of a
request is `true` for success and `false` for an error response.
-/

namespace Tinymist.Focus

/-- The fields of `ServerState` the rules depend on
(`crates/tinymist/src/server.rs` 67-90), the default entry of the configuration
(`entry_resolver().resolve_default()`; `has_default_entry_path` is
`default.is_some()`, `config.rs` 430), and the main file. -/
structure State (P : Type) where
  main : Option P
  focusing : Option P
  pinUser : Bool
  pinPreview : Bool
  pinBrowsing : Bool
  manual : Bool
  activities : Bool
  default : Option P
deriving DecidableEq, Repr

/-- `ServerState::new` (`server.rs` 120-140) and the first project, whose entry
is the default one (`project.rs` 181-182). -/
def init {P : Type} (default : Option P) : State P :=
  ⟨default, none, false, false, false, false, false, default⟩

inductive Op (P : Type) where
  /-- The command `tinymist.pinMain`. -/
  | pin (p : Option P)
  /-- The command `tinymist.focusMain`. -/
  | focus (p : Option P)
  /-- `textDocument/didOpen`. -/
  | opened (p : P)
  /-- Hover, folding range and semantic token requests. -/
  | queried (p : P)
  /-- A preview is started on the primary project. -/
  | previewStart (p : Option P) (browsing : Bool)
  /-- The event `UnpinPrimaryByPreview`. -/
  | previewStop
  /-- The configuration changed; `reload`: the options of the primary project differ. -/
  | configure (default : Option P) (reload : Bool)
deriving DecidableEq, Repr

variable {P : Type} (valid : P → Bool)

/-- `change_main_file` (`input.rs` 107-123). -/
def changeMain (s : State P) (p : Option P) : State P × Bool :=
  if p.any (fun p => !valid p) then (s, false) else ({ s with main := p }, true)

/-- `pin_main_file` (`input.rs` 126-133), called by `pin_document`
(`cmd.rs` 281-289). -/
def pinMain (s : State P) (p : Option P) : State P × Bool :=
  let s := { s with pinUser := p.isSome }
  changeMain valid s ((p.or s.default).or s.focusing)

/-- `focus_main_file` (`input.rs` 136-151); the flag tells `Ok` from `Err`.
`implicit_position` is left out. -/
def focusMain (s : State P) (p : Option P) : State P × Bool :=
  let s := { s with focusing := p }
  if s.pinUser || (s.pinPreview && !s.pinBrowsing) || s.default.isSome then (s, true)
  else changeMain valid s p

/-- `implicit_focus_entry` (`input.rs` 161-195); errors are only logged. -/
def implicitFocus (s : State P) (p : P) (activity : Bool) : State P :=
  if s.manual then s
  else if activity then (focusMain valid { s with activities := true } (some p)).1
  else if s.activities then s
  else (focusMain valid s (some p)).1

/-- The requests: `pin_document` and `focus_document` (`cmd.rs` 281-306),
`did_open` (`lsp.rs` 87-98), `hover` and the like (`lsp/query.rs` 82, 95, 133,
144), the primary branch of `start_preview` (`tool/preview.rs` 209-219),
`server_event` (`server.rs` 354-358), `on_changed_configuration` and
`reload_projects` (`lsp.rs` 125-156, `project.rs` 81-117). -/
def step (s : State P) : Op P → State P × Bool
  | .pin p => pinMain valid s p
  | .focus p => focusMain valid { s with manual := true } p
  | .opened p => (implicitFocus valid s p false, true)
  | .queried p => (implicitFocus valid s p true, true)
  | .previewStart p browsing =>
    let r := match p with
      | some p => changeMain valid s (some p)
      | none => (s, true)
    if r.2 then ({ r.1 with pinPreview := true, pinBrowsing := browsing }, true) else r
  | .previewStop => ({ s with pinPreview := false, pinBrowsing := false }, true)
  | .configure d reload =>
    ({ s with default := d, main := if reload then d else s.main }, true)

def run (s : State P) (ops : List (Op P)) : State P := ops.foldl (fun s o => (step valid s o).1) s

end Tinymist.Focus
