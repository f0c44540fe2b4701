import Verif.Model.EditorDiag

/-!
# From compilations to the diagnostics shown

`CompileHandlerImpl` (`crates/tinymist/src/project.rs` 384-610) sends the
diagnostics of each compilation to the editor actor, either at once or, when
linting, from a task of a thread pool. The channel keeps the order of sends;
the actor is `EditorDiag.publish`.
-/

namespace Tinymist.DiagFlow

open Tinymist.EditorDiag (Proj DiagnosticsMap Assoc)

/-- A compiled artifact as `notify_compile` sees it. `plain` are its compiler
diagnostics, `linted` those and the lints (`CheckRequest`,
`crates/tinymist-query/src/check.rs` 12-19, always `Some`), `lint` the decision
`shouldLint` of the policy. -/
structure Art (D : Type) where
  id : Proj
  rev : Nat
  inactive : Bool
  lint : Bool
  plain : DiagnosticsMap D
  linted : DiagnosticsMap D

/-- `notified_revision` (`project.rs` 398; absent is `0`), the lint tasks in the thread
pool, and the channel to the editor actor, oldest message first. -/
structure State (D : Type) where
  notified : Proj → Nat
  pool : List (Proj × DiagnosticsMap D)
  chan : List (Proj × Option (DiagnosticsMap D))

def init (D : Type) : State D := ⟨fun _ => 0, [], []⟩

inductive Op (D : Type) where
  /-- `notify_compile` of an artifact. -/
  | compiled (a : Art D)
  /-- `notify_removed` of a project. -/
  | removed (p : Proj)
  /-- The thread pool finishes its `i`-th lint task. -/
  | lintDone (i : Nat)

/-- `notify_diagnostics` (`project.rs` 433-484). -/
def notifyDiagnostics {D : Type} (s : State D) (a : Art D) : State D :=
  if a.inactive then { s with chan := s.chan ++ [(a.id, none)] }
  else if a.lint then { s with pool := s.pool ++ [(a.id, a.linted)] }
  else { s with chan := s.chan ++ [(a.id, some a.plain)] }

/-- `notify_compile` (`project.rs` 597-636): the revision guard, then the diagnostics. -/
def notifyCompile {D : Type} (s : State D) (a : Art D) : State D :=
  if s.notified a.id ≥ a.rev then s
  else notifyDiagnostics
    { s with notified := fun p => if p = a.id then a.rev else s.notified p } a

/-- `notify_removed` (`project.rs` 583-595). -/
def notifyRemoved {D : Type} (s : State D) (p : Proj) : State D :=
  ⟨fun q => if q = p then 0 else s.notified q, s.pool, s.chan ++ [(p, none)]⟩

/-- The end of the closure given to `rayon::spawn` (`project.rs` 466-482). -/
def lintDone {D : Type} (s : State D) (i : Nat) : State D :=
  match s.pool[i]? with
  | some (p, d) => { s with pool := s.pool.eraseIdx i, chan := s.chan ++ [(p, some d)] }
  | none => s

def step {D : Type} (s : State D) : Op D → State D
  | .compiled a => notifyCompile s a
  | .removed p => notifyRemoved s p
  | .lintDone i => lintDone s i

def run {D : Type} (s : State D) (ops : List (Op D)) : State D := ops.foldl step s

end Tinymist.DiagFlow
