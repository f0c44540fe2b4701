import Verif.Model.ExportPolicy

/-!
# The documented meaning of the task policies
-/

namespace Tinymist.ExportPolicy

/-- When a task with policy `w` is due: never for `never`; else on an entry
change, and on an edit, a save, or a save of a titled document, according to
the policy. -/
def Due (s : Signal) (w : When) (titled : Bool) : Prop :=
  w ≠ .never ∧
    (s.byEntry = true ∨ (w = .onType ∧ s.byMem = true) ∨ (w = .onSave ∧ s.byFs = true) ∨
      (w = .onDocumentHasTitle ∧ s.byFs = true ∧ titled = true))

end Tinymist.ExportPolicy
