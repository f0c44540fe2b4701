/-!
# The queue of background jobs of the export task

`ExportTask` keeps one `FutureFolder` for exports and one for word counts. A
folder remembers at most one job that has not started yet, and hands out a
driver future only when none is alive. Job bodies are opaque; a job is known by
the project it exports and by the revision it was submitted with.

A state below is a point between two critical sections of `FoldingState`'s
mutex (each critical section is one step), so every interleaving of threads is
a list of `Op`s. The `handle.spawn(fut)` after `spawn` (`export.rs` 94) only
says when the driver is first polled; a driver that exists and takes no step
models the delay.
-/

namespace Tinymist.Folder

/-- What `ExportTask::signal_export` submits: `artifact.id()` and
`artifact.world().revision()` (`crates/tinymist/src/task/export.rs` 84-91). -/
structure Job where
  proj : Nat
  rev : Nat
deriving DecidableEq, Repr

/-- What an observer of the jobs sees, in order. -/
inductive Ev where
  | submitted (j : Job)
  | started (j : Job)
  | finished (j : Job)
deriving DecidableEq, Repr

/-- `FoldingState { running, task }` (`crates/tinymist/src/task/mod.rs` 47-51),
the driver futures returned by `spawn` and not finished yet (`none`: about to
lock the state, `some j`: awaiting `j`), and the events so far. -/
structure State where
  running : Bool
  task : Option Job
  drivers : List (Option Job)
  log : List Ev
deriving DecidableEq, Repr

/-- `FutureFolder::default()` (`task/mod.rs` 53-56). -/
def init : State := ⟨false, none, [], []⟩

/-- One critical section: a submission, a poll of the `i`-th driver that gets
to its next suspension point, or a panic of the job the `i`-th driver awaits. -/
inductive Op where
  | submit (j : Job)
  | step (i : Nat)
  | panic (i : Nat)
deriving DecidableEq, Repr

/-- `FutureFolder::spawn` (`task/mod.rs` 68-97): a pending job is replaced only
by a strictly newer one; a driver is returned only if none is running. -/
def submit (s : State) (j : Job) : State :=
  match s.task with
  | some p =>
    if p.rev < j.rev then { s with task := some j, log := s.log ++ [.submitted j] }
    else { s with log := s.log ++ [.submitted j] }
  | none =>
    if s.running then { s with task := some j, log := s.log ++ [.submitted j] }
    else ⟨true, some j, s.drivers ++ [none], s.log ++ [.submitted j]⟩

/-- The body of the loop (`task/mod.rs` 98-109). -/
def drive (s : State) (i : Nat) : State :=
  match s.drivers[i]? with
  | none => s
  | some (some j) => { s with drivers := s.drivers.set i none, log := s.log ++ [.finished j] }
  | some none =>
    match s.task with
    | none => { s with running := false, drivers := s.drivers.eraseIdx i }
    | some j =>
      { s with task := none, drivers := s.drivers.set i (some j), log := s.log ++ [.started j] }

/-- A panic unwinds out of `fut.await` (`task/mod.rs` 108): the driver is
gone and `running` is not reset. -/
def crash (s : State) (i : Nat) : State :=
  match s.drivers[i]? with
  | some (some j) => { s with drivers := s.drivers.eraseIdx i, log := s.log ++ [.finished j] }
  | _ => s

def step (s : State) : Op → State
  | .submit j => submit s j
  | .step i => drive s i
  | .panic i => crash s i

def run (s : State) (ops : List Op) : State := ops.foldl step s

end Tinymist.Folder
