import Verif.Model.Renaming

/-!
# What may be renamed
-/

namespace Tinymist.Renaming

open Paths

/-- The function was written by the user or loaded as a plugin, possibly with arguments given in advance. -/
inductive Written : Fn → Prop where
  | closure : Written .closure
  | plugin : Written .plugin
  | withArgs {f : Fn} : Written f → Written (.withArgs f)

/-- The definition is a variable or a function of the user's own files. -/
def OwnName (d : Def) : Prop :=
  (∃ p, d.file = some p ∧ p.package = false) ∧
    (d.kind = .var ∨ ((d.kind = .func ∨ d.kind = .closure) ∧ (d.value = none ∨ ∃ f, d.value = some (.func f) ∧ Written f)))

/-- The kinds of definitions that are files. -/
def IsModule (k : Kind) : Prop :=
  k = .module ∨ k = .moduleAlias ∨ k = .pathStem ∨ k = .importPath ∨ k = .includePath ∨ k = .moduleImport

/-- The definition is a file of the user's own, and the place is a string. -/
def OwnPath (n : Node) (d : Def) (t : Text) : Prop :=
  (∃ p, d.file = some p ∧ p.package = false) ∧ IsModule d.kind ∧ n = .str t

/-- The place is a path of an import or an include. -/
def IsPath (c : Class) : Prop := c = .importPath ∨ c = .includePath

/-- The place is a name. -/
def IsName (c : Class) : Prop := c = .varAccess ∨ c = .callee

/-- The edits of one file. -/
def editsIn (f : Nat) (es : List (Nat × List TextEdit)) : List TextEdit := (es.filter (·.1 = f)).flatMap (·.2)

/-- The path meant by a new name: it has the ending `.typ`. -/
def Completed (new full : Text) : Prop :=
  ((∃ a, new = a ++ ".typ".toList) ∧ full = new) ∨ ((¬ ∃ a, new = a ++ ".typ".toList) ∧ full = new ++ ".typ".toList)

end Tinymist.Renaming
