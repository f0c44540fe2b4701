import Verif.Model.Recorded
import Verif.Spec.Answer

/-!
# What the lock file should say about a document
-/

namespace Tinymist.Recorded

open Paths Answer

/-- The absolute path of a directory, or of a file, without `..`. -/
def Plain (p : Text) : Prop := isAbsolute p = true ∧ Comp.parent ∉ components p

/-- A file is in a directory, at these names below it. -/
def Below (dir file : Text) (names : List Text) : Prop := denotes [] file = denotes [] dir ++ names

/-- Read in `dir`, the record is of this file. -/
def Of (dir : Text) (d : Input) (file : Dir) : Prop := ∃ t, Written dir d.main t ∧ denotes [] t = file

/-- Read in `dir`, the root that is recorded is this directory. -/
def RootOf (dir : Text) (d : Input) (root : Dir) : Prop := ∃ r t, d.root = some r ∧ Written dir r t ∧ denotes [] t = root

end Tinymist.Recorded
