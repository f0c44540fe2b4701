import Verif.Model.Rename
import Verif.Spec.Workspace

/-!
# What a path in a document refers to
-/

namespace Tinymist.Rename

open Paths Workspace

/-- A path written in a file in directory `dir` refers to the file `e` of the project: it is followed from the
directory, or from the root if it starts with a slash, and never leads out of the project. What starts with `@` is a
package. -/
def Refers (dir : List Text) (s : Text) (e : List Text) : Prop :=
  s.head? ≠ some '@' ∧ within dir (components s) = some e

instance (dir : List Text) (s : Text) (e : List Text) : Decidable (Refers dir s e) := inferInstanceAs (Decidable (_ ∧ _))

/-- The variable an import defines: the alias, or the stem of the file name. -/
def defines (s : Text) (as : Option Text) : Option Text :=
  match as with
  | some a => some a
  | none => fileStem s

/-- A text is the path of the file `e` of a project at `root`, without detours. -/
def At (root : List Text) (e : List Text) (s : Text) : Prop := components s = .root :: (root ++ e).map Comp.normal

instance (root e : List Text) (s : Text) : Decidable (At root e s) := inferInstanceAs (Decidable (_ = _))

/-- Where a file is after the file `target` went to `place`. -/
def moved (target place e : List Text) : List Text := if e = target then place else e

/-- A path's text after an edit. -/
def edited (s : Text) (e : Option Edit) : Text := match e with | none => s | some e => e.text

end Tinymist.Rename
