import Verif.Model.Workspace
import Verif.Model.ResourcePath

/-!
# In which project a request is answered

Models `query` and `query_on` (`crates/tinymist/src/lsp/query.rs` 304-398), `resolve_task`
(`crates/tinymist/src/input.rs` 198-252), `is_pinning` (`crates/tinymist/src/server.rs` 156-162), the kinds
of requests (`crates/tinymist-query/src/lib.rs` 178-284) and what of a snapshot a task changes
(`crates/tinymist-world/src/snapshot.rs` 108-127, `world.rs` 478-520).

The lock files are what `ProjectRouteState` knows at the time (see `Routes`): `route` is its `resolve`, `lock` its
`locate`. Of a snapshot we keep the entry, the inputs (`sys.inputs`) and the main file of the document compiled
last (`success_doc`). The answers themselves are made by other areas; here an answer is the snapshot it is made from.
-/

namespace Tinymist.Answer

open Paths Workspace
open ResourcePath (ResPath)

/-- `CompilerQueryRequest` (`crates/tinymist-query/src/lib.rs` 178-211). -/
inductive Kind where
  | onExport | hover | gotoDefinition | gotoDeclaration | references | inlayHint | documentColor | documentLink
  | documentHighlight | colorPresentation | codeAction | codeLens | completion | signatureHelp | rename
  | willRenameFiles | prepareRename | documentSymbol | symbol | semanticTokensFull | semanticTokensDelta
  | formatting | foldingRange | selectionRange | interactCodeContext | onEnter | documentMetrics
  | workspaceLabel | serverInfo
deriving DecidableEq

/-- A request; `path` is its field `path`, if it has one. -/
structure Query where
  kind : Kind
  path : Text

/-- `FoldRequestFeature` (`lib.rs` 170-175). -/
inductive Feature where
  | pinnedFirst | unique | mergeable | contextFreeUnique
deriving DecidableEq

/-- `fold_feature` (`lib.rs` 213-248). -/
def Kind.feature : Kind → Feature
  | .onExport => .mergeable
  | .hover => .pinnedFirst
  | .gotoDefinition => .pinnedFirst
  | .gotoDeclaration => .pinnedFirst
  | .references => .pinnedFirst
  | .inlayHint => .unique
  | .documentColor => .pinnedFirst
  | .documentLink => .pinnedFirst
  | .documentHighlight => .pinnedFirst
  | .colorPresentation => .contextFreeUnique
  | .codeAction => .unique
  | .codeLens => .unique
  | .completion => .mergeable
  | .signatureHelp => .pinnedFirst
  | .rename => .mergeable
  | .willRenameFiles => .mergeable
  | .prepareRename => .mergeable
  | .documentSymbol => .contextFreeUnique
  | .workspaceLabel => .mergeable
  | .symbol => .mergeable
  | .semanticTokensFull => .pinnedFirst
  | .semanticTokensDelta => .pinnedFirst
  | .formatting => .contextFreeUnique
  | .foldingRange => .contextFreeUnique
  | .selectionRange => .contextFreeUnique
  | .interactCodeContext => .pinnedFirst
  | .onEnter => .contextFreeUnique
  | .documentMetrics => .pinnedFirst
  | .serverInfo => .mergeable

/-- `associated_path` (`lib.rs` 250-284). -/
def Query.associated (q : Query) : Option Text :=
  match q.kind with
  | .onExport => none
  | .willRenameFiles => none
  | .symbol => none
  | .workspaceLabel => none
  | .serverInfo => none
  | _ => some q.path

/-- The requests with an arm in the last `match` of `query_on` (`lsp/query.rs` 371-395). -/
def Kind.handled : Kind → Bool
  | .semanticTokensFull => true
  | .semanticTokensDelta => true
  | .interactCodeContext => true
  | .hover => true
  | .gotoDefinition => true
  | .gotoDeclaration => true
  | .references => true
  | .inlayHint => true
  | .documentHighlight => true
  | .documentColor => true
  | .documentLink => true
  | .codeAction => true
  | .codeLens => true
  | .completion => true
  | .signatureHelp => true
  | .rename => true
  | .willRenameFiles => true
  | .prepareRename => true
  | .symbol => true
  | .workspaceLabel => true
  | .documentMetrics => true
  | _ => false

abbrev Inputs := List (Text × Text)

/-- What of `ProjectInput` (`crates/tinymist-project/src/model.rs` 72-94) matters here. -/
structure Input where
  id : Text
  root : Option ResPath
  main : ResPath
  inputs : Inputs

/-- What of `CompileSnapshot` (`crates/tinymist-world/src/snapshot.rs` 60-80) matters here; `doc` is the main file of
`success_doc`. -/
structure Snap where
  entry : EntryState
  inputs : Inputs
  doc : Option FileId
deriving DecidableEq

/-- What of `ServerState` (`crates/tinymist/src/server.rs` 50-120) matters here. `memory` are the paths of
`memory_changes`; `snap` is the snapshot of the primary project. -/
structure Server where
  pinUser : Bool
  pinPreview : Bool
  lockDatabase : Bool
  memory : List Text
  resolver : Resolver
  interner : Interner
  snap : Snap

/-- What is known from lock files and the disk. -/
structure Env where
  /-- `ProjectRouteState::resolve` -/
  route : Text → Option (Text × Text)
  /-- `ProjectRouteState::locate`, and the documents of the lock file -/
  lock : Text → Option (List Input)
  hasToml : HasToml

/-- `is_pinning` (`server.rs` 156-162). -/
def Server.isPinning (s : Server) : Bool := s.pinUser || (s.pinPreview && s.snap.entry.main.isSome)

/-- `ResourcePath::to_abs_path` (`crates/tinymist-task/src/primitives.rs` 346-357). -/
def toAbs (base : Text) (r : ResPath) : Option Text :=
  if r.scheme = ['f', 'i', 'l', 'e'] then some (toAbsPath base r.path) else none

/-- The root and the main file of the project that the lock files name for a path (`input.rs` 214-236);
`get_document` is `lock.rs` 20-22. -/
def Env.project (env : Env) (path : Text) : Option (Text × Text) :=
  (env.route path).bind fun (dir, id) =>
    (env.lock dir).bind fun docs =>
      (docs.find? (·.id = id)).map fun d => (((d.root.bind (toAbs dir)).getD dir), (toAbs dir d.main).getD path)

/-- `resolve_task` (`input.rs` 213-251); `none` if it panics. The inputs of the task are never set. -/
def resolveTask (env : Env) (s : Server) (path : Text) : Option (Server × EntryState) :=
  match if s.lockDatabase then env.project path else none with
  | some (root, main) =>
    (s.resolver.resolveWithRoot s.interner (some root) main).map fun (i, e) => ({ s with interner := i }, e)
  | none =>
    let r := s.resolver.resolve env.hasToml s.interner path
    r.2.map fun (i, e) => ({ s with interner := i, resolver := r.1 }, e)

/-- `CompileSnapshot::task` (`snapshot.rs` 108-127) for an entry: the document is kept. -/
def Snap.task (snap : Snap) (e : EntryState) : Snap :=
  if e ≠ snap.entry then { snap with entry := e } else snap

/-- `DETACHED_ENTRY` (`crates/tinymist-world/src/entry.rs` 31-32). -/
def detached : Text := ['/', '_', '_', 'd', 'e', 't', 'a', 'c', 'h', 'e', 'd', '.', 't', 'y', 'p']

/-- What becomes of a request. -/
inductive Outcome where
  /-- It is answered from a snapshot. -/
  | snapshot (s : Server) (snap : Snap)
  /-- It is answered from the text of an open file. -/
  | source (path : Text)
  /-- "file missing" -/
  | missing
  /-- It is answered elsewhere: colors, exports and the state of the server. -/
  | elsewhere
  /-- The server panics. -/
  | panic

/-- `query_on` (`lsp/query.rs` 335-397). -/
def queryOn (env : Env) (s : Server) (q : Query) : Outcome :=
  if q.kind.feature = .contextFreeUnique then .panic
  else
    let done (s' : Server) (snap : Snap) : Outcome := if q.kind.handled then .snapshot s' snap else .panic
    if s.isPinning then done s s.snap
    else
      match q.associated with
      | some path =>
        match resolveTask env s path with
        | some (s', e) => done s' (s.snap.task e)
        | none => .panic
      | none =>
        match s.resolver.defaultRoot with
        | none => done s s.snap
        | some root =>
          match newRooted s.interner root (vpathNew detached) with
          | some (i, e) => done { s with interner := i } (s.snap.task e)
          | none => .panic

/-- `query_source` (`input.rs` 85-94): the paths of open files are compared by their components. -/
def querySource (s : Server) (path : Text) : Outcome :=
  if s.memory.any fun p => components p = components path then .source path else .missing

/-- `query` (`lsp/query.rs` 319-333). -/
def query (env : Env) (s : Server) (q : Query) : Outcome :=
  match q.kind with
  | .foldingRange => querySource s q.path
  | .selectionRange => querySource s q.path
  | .documentSymbol => querySource s q.path
  | .onEnter => querySource s q.path
  | .colorPresentation => .elsewhere
  | .onExport => .elsewhere
  | .serverInfo => .elsewhere
  | _ => queryOn env s q

end Tinymist.Answer
