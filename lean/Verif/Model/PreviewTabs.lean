/-!
# Starting and stopping previews

Models `ServerState::start_preview` (`crates/tinymist/src/tool/preview.rs` 157-238),
`PreviewState::{start, kill, stop_all}` (same file, 279-293, 300-416, 419-426),
`ProjectPreviewState` (`crates/tinymist/src/project.rs` 353-384) and `PreviewActor`
(`crates/tinymist/src/actor/preview.rs` 38-123). The server, the starting of each preview and the
actor run concurrently: an execution is a sequence of `Op`s.
-/

namespace Tinymist.PreviewTabs

/-- Names of tasks and of projects; the project of a dedicated preview has the name of its task
(`crates/tinymist-project/src/compiler.rs` 475-476). -/
abbrev Name := List Char

/-- The id of the primary project, also the reserved task id (`preview.rs` 183-185). -/
def primary : Name := "primary".toList

/-- `PreviewTab` (`actor/preview.rs` 14-29), as far as it matters here. -/
structure Tab where
  task : Name
  project : Name
  background : Bool
deriving DecidableEq

/-- `PreviewRequest` (`actor/preview.rs` 31-37) without scrolling. -/
inductive Request where
  | started (t : Tab)
  | kill (task : Name)
  | killAll
deriving DecidableEq

/-- `watchers`: which project is watched, and by the preview of which task. `starting`: previews whose future
(`preview.rs` 380-415) is running. `mailbox`: what was sent to the actor. `tabs`: the tabs of the actor. -/
structure State where
  watchers : List (Name × Name)
  starting : List Tab
  mailbox : List Request
  tabs : List Tab
deriving DecidableEq

def init : State := ⟨[], [], [], []⟩

/-- `PreviewKind` (`preview.rs` 36-43). -/
inductive Kind where
  | regular
  | browsing
  | background
deriving DecidableEq

/-- What a request to start gives: `entry`: a main file is given; `mainFails`: `change_main_file` fails; `hostFails`: the
removed option `--static-file-host` is given (`preview.rs` 317-319). -/
structure Args where
  task : Name
  entry : Bool
  kind : Kind
  notPrimary : Bool
  mainFails : Bool
  hostFails : Bool
deriving DecidableEq

/-- `ProjectPreviewState::register` (`project.rs` 361-372). -/
def register (w : List (Name × Name)) (project task : Name) : Option (List (Name × Name)) :=
  if w.any (fun x => x.1 = project) then none else some (w ++ [(project, task)])

/-- `ProjectPreviewState::unregister` (`project.rs` 375-377). -/
def unregister (w : List (Name × Name)) (project : Name) : List (Name × Name) :=
  w.filter (fun x => x.1 ≠ project)

/-- Whether the preview asks to be the primary one (`preview.rs` 202-204). -/
def wantsPrimary (a : Args) : Bool :=
  !a.notPrimary && (a.kind = .browsing || a.kind = .background || a.entry)

/-- The first part of `PreviewState::start` (`preview.rs` 300-319): what is returned before the future runs. -/
def spawn (s : State) (a : Args) (project : Name) : State × Bool :=
  if a.hostFails then (s, false)
  else ({ s with starting := s.starting ++ [⟨a.task, project, a.kind = .background⟩] }, true)

/-- The part of `start_preview` for dedicated previews (`preview.rs` 221-236). -/
def startDedicated (s : State) (a : Args) : State × Bool :=
  if a.entry then
    match register s.watchers a.task a.task with
    | none => (s, false)
    | some w => spawn { s with watchers := w } a a.task
  else (s, false)

/-- `start_preview` (`preview.rs` 157-238); `false` is an error. -/
def start (s : State) (a : Args) : State × Bool :=
  if a.task = primary then (s, false)
  else if a.notPrimary && a.kind = .background then (s, false)
  else
    match (if wantsPrimary a then register s.watchers primary a.task else none) with
    | some w =>
      if a.entry && a.mainFails then ({ s with watchers := w }, false)
      else spawn { s with watchers := w } a primary
    | none => if a.kind = .background then (s, false) else startDedicated s a

/-- `PreviewActor::kill` (`actor/preview.rs` 76-118). -/
def kill (s : State) (task : Name) : State :=
  match s.tabs.find? (fun t => t.task = task) with
  | none => s
  | some t =>
    if t.background then s
    else
      { s with
        tabs := s.tabs.filter (fun t => t.task ≠ task)
        watchers := unregister s.watchers t.project }

/-- One request of the actor (`actor/preview.rs` 48-73); `HashMap::insert` replaces. -/
def handle (s : State) : Request → State
  | .started t => { s with tabs := s.tabs.filter (fun u => u.task ≠ t.task) ++ [t] }
  | .kill task => kill s task
  | .killAll => (s.tabs.map (·.task)).foldl kill s

inductive Op where
  /-- `tinymist.doStartPreview` and the like. -/
  | start (a : Args)
  /-- The future of the preview of this task runs to its end: the tab is sent to the actor (`preview.rs` 403-411). -/
  | up (task : Name)
  /-- The future fails, e.g. the address cannot be bound (`tool/preview/http.rs` 35-37 panics). -/
  | down (task : Name)
  /-- `tinymist.doKillPreview`, or the preview asks to end. -/
  | kill (task : Name)
  | killAll
  /-- `stop_all`, called by `reload_projects` (`project.rs` 81-84). -/
  | reload
  /-- The actor handles its next request. -/
  | handle
deriving DecidableEq

def step (s : State) : Op → State
  | .start a => (start s a).1
  | .up task =>
    { s with
      starting := s.starting.filter (fun t => t.task ≠ task)
      mailbox := s.mailbox ++ (s.starting.filter (fun t => t.task = task)).map .started }
  | .down task => { s with starting := s.starting.filter (fun t => t.task ≠ task) }
  | .kill task => { s with mailbox := s.mailbox ++ [.kill task] }
  | .killAll => { s with mailbox := s.mailbox ++ [.killAll] }
  | .reload => { s with mailbox := s.mailbox ++ s.watchers.map (fun w => .kill w.2), watchers := [] }
  | .handle => match s.mailbox with
    | [] => s
    | r :: rest => handle { s with mailbox := rest } r

def run (ops : List Op) : State := ops.foldl step init

end Tinymist.PreviewTabs
