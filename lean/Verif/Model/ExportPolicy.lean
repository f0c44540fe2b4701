/-!
# When exports, lints and compilations for a format run

Documents are known by whether they have a title
(`doc.info().title.is_some()`).
-/

namespace Tinymist.ExportPolicy

/-- `TaskWhen` (`crates/tinymist-world/src/args.rs` 242-255; the default is `Never`). -/
inductive When where
  | never | onSave | onType | onDocumentHasTitle
deriving DecidableEq, Repr

/-- `ExportSignal` (`crates/tinymist-world/src/snapshot.rs` 29-37). -/
structure Signal where
  byMem : Bool
  byFs : Bool
  byEntry : Bool
deriving DecidableEq, Repr

/-- `ExportSignal::merge` (`snapshot.rs` 41-45). -/
def merge (a b : Signal) : Signal :=
  ⟨a.byMem || b.byMem, a.byFs || b.byFs, a.byEntry || b.byEntry⟩

/-- `ExportSignal::should_run_task` (`snapshot.rs` 59-77); `titled` is the
document, if there is one. `should_run_task_dyn` (47-57) only selects the type
of the document. -/
def shouldRun (s : Signal) (w : When) (titled : Option Bool) : Option Bool :=
  if w ≠ .never ∧ s.byEntry = true then some true
  else match w with
    | .never => some false
    | .onType => some s.byMem
    | .onSave => some s.byFs
    | .onDocumentHasTitle => if s.byFs then titled else some false

/-- The decision in `ExportTask::signal_export`
(`crates/tinymist/src/task/export.rs` 68-83); `w` is `config.task.when()`.
`none` in `titled`: `artifact.doc` is `None` and nothing is done. -/
def signalExport (s : Signal) (w : Option When) (titled : Option Bool) : Bool :=
  match titled with
  | none => false
  | some t =>
    let w := w.getD .never
    (w ≠ .never && s.byEntry) ||
      match w with
      | .never => false
      | .onType => s.byMem
      | .onSave => s.byFs
      | .onDocumentHasTitle => s.byFs && t

/-- `should_lint` in `CompileHandlerImpl::notify_diagnostics`
(`crates/tinymist/src/project.rs` 446-450): `unwrap_or_default`. -/
def shouldLint (s : Signal) (w : When) (titled : Option Bool) : Bool :=
  (shouldRun s w titled).getD false

/-- `ExportTimings::needs_run` (`crates/tinymist-task/src/compute.rs` 39-48). -/
def needsRun (s : Signal) (w : Option When) (titled : Option Bool) : Option Bool :=
  shouldRun s (w.getD .never) titled

/-- The decision in `ProjectExport::export_bytes` and `export_string`
(`crates/tinymist/src/task/export2.rs` 81-118): skip when `needs_run` says
no, and do nothing without a document. -/
def exportBytes (s : Signal) (w : Option When) (titled : Option Bool) : Bool :=
  if (needsRun s w titled).getD true then titled.isSome else false

/-- The timings found in the compute graph (`export2.rs` 31-54). -/
structure Timings where
  pdf : Option When
  svg : Option When
  png : Option When
  html : Option When
  md : Option When
  text : Option When
deriving DecidableEq, Repr

/-- `check` (`export2.rs` 57). -/
def check (s : Signal) (w : Option When) : Bool := (needsRun s w none).getD true

/-- `compile_paged` and `compile_html` of `ProjectCompilation::preconfig_timings`
(`export2.rs` 26-66). -/
def preconfig (s : Signal) (t : Timings) : Bool × Bool :=
  ([some When.onType, t.pdf, t.svg, t.png, t.text, t.md].any (check s),
   [some When.never, t.html].any (check s))

end Tinymist.ExportPolicy
