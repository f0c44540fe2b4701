import Verif.Model.DiagFlow
import Verif.Spec.EditorDiag

/-!
# What the editor should show for a compilation
-/

namespace Tinymist.DiagFlow

open Tinymist.EditorDiag

/-- The diagnostics a compilation calls for: nothing if the project has no
entry, its compiler diagnostics, or those with the lints. -/
def verdict {D : Type} (a : Art D) : Option (DiagnosticsMap D) :=
  if a.inactive then none else if a.lint then some a.linted else some a.plain

/-- What the editor has last been told about a project. -/
def told {D : Type} (s : State D) (p : Proj) : Option (DiagnosticsMap D) :=
  Spec.lastReport s.chan p

/-- A lint of the project is still running. -/
def Linting {D : Type} (s : State D) (p : Proj) : Prop := ∃ e ∈ s.pool, e.1 = p

end Tinymist.DiagFlow
