/-!
# The document that questions about the project are answered from

Models the parts of `ProjectInsState` that keep the last document and the last snapshot (`crates/tinymist-project/src/compiler.rs`: `snapshot`,
`make_snapshot` 763-787, `may_compile` 811-823, `process_compile` 874-889, and the arms `Compile`, `Compiled` and `ChangeTask` of
`process_inner` 524-590), `increment_revision` (`crates/tinymist-world/src/world.rs` 176-187, 346-371) and the questions that use the document
of a snapshot (`run_stateful`, `crates/tinymist-query/src/analysis.rs` 155-163; hover, definitions, references, renames, metrics, jumps).

Simplified: one project; compilations that are going on finish in any order; a document is the revision and the main file it was made from;
dependencies are numbers. A change of files that a project has not read is not an event.
-/

namespace Tinymist.LatestDoc

/-- A document, by what it was made from. -/
structure Doc where
  rev : Nat
  entry : Nat
  deriving DecidableEq, Repr

/-- `CompileSnapshot` (tinymist-world/src/snapshot.rs 81-90). -/
structure Snap where
  rev : Nat
  entry : Option Nat
  doc : Option Doc
  deriving DecidableEq, Repr

/-- What is finished: the arguments of `process_compile`, and changes of the main file. Not in the program. -/
inductive Event where
  | delivered (d : Doc) (ok : Bool) (deps : List Nat)
  | changed
  deriving DecidableEq, Repr

/-- `ProjectInsState` (compiler.rs 734-758): `entry` is the main file of an active project, `jobs` are the compilations going on. -/
structure St where
  rev : Nat
  entry : Option Nat
  reason : Bool
  snap : Option Snap
  committed : Nat
  latest : Option Doc
  deps : List Nat
  jobs : List Doc
  trace : List Event
  deriving DecidableEq, Repr

/-- `create_project` (compiler.rs 433-454); the first revision is 1 (world.rs 89). -/
def init (entry : Option Nat) : St := ⟨1, entry, false, none, 0, none, [], [], []⟩

/-- `make_snapshot` (compiler.rs 774-787). -/
def St.makeSnap (s : St) : Snap := ⟨s.rev, s.entry, s.latest⟩

/-- `snapshot` (compiler.rs 763-772): the one kept if it is of this revision. -/
def St.snapshot (s : St) : Snap :=
  match s.snap with
  | some p => if p.rev = s.rev then p else s.makeSnap
  | none => s.makeSnap

inductive Op where
  /-- files, fonts or the wish to compile (compiler.rs 525-533, 592-690) -/
  | edit
  /-- `ChangeTask` with a main file, or with none, or without one (compiler.rs 554-590) -/
  | changeTask (inputs : Bool) (entry : Option (Option Nat))
  /-- `may_compile` (compiler.rs 811-823) -/
  | start
  /-- `Compiled` (compiler.rs 534-550): the compilation at this place is finished, with a document or not -/
  | finish (i : Nat) (ok : Bool) (deps : List Nat)
  /-- a question takes a snapshot -/
  | ask
  deriving DecidableEq, Repr

/-- `process_compile` (compiler.rs 874-899). -/
def St.process (s : St) (d : Doc) (ok : Bool) (deps : List Nat) : St :=
  if s.committed ≥ d.rev then s
  else { s with committed := d.rev, latest := if ok then some d else s.latest, deps := deps }

/-- One step. -/
def step (s : St) : Op → St
  | .edit => { s with rev := s.rev + 1, reason := true }
  | .changeTask inputs entry =>
    let s := if inputs || entry.isSome then { s with rev := s.rev + 1 } else s
    match entry with
    | some e => { s with entry := e, latest := none, reason := true, trace := s.trace ++ [.changed] }
    | none => { s with reason := true }
  | .start =>
    match s.entry with
    | some e =>
      if s.reason then { s with snap := some s.snapshot, reason := false, jobs := s.jobs ++ [⟨s.snapshot.rev, s.snapshot.entry.getD e⟩] } else s
    | none => s
  | .finish i ok deps =>
    match s.jobs[i]? with
    | some d => ({ s with jobs := s.jobs.eraseIdx i, trace := s.trace ++ [.delivered d ok deps] } : St).process d ok deps
    | none => s
  | .ask => { s with snap := some s.snapshot }

/-- What a question at this moment is answered from. -/
def St.answer (s : St) : Snap := s.snapshot

def run (s : St) (ops : List Op) : St := ops.foldl step s

end Tinymist.LatestDoc
