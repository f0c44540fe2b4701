import Verif.Model.References
import Verif.Spec.Scoping

/-! # References: the specification -/
namespace Tinymist.Scoping

/-- The files a definition gets to: its home, and whatever imports a file got to in which the
name is written and means the definition at the end of the file, so that it is exported. -/
inductive Reached (W : World) (files : List E) (home : File) (d : Decl) : File → Prop where
  | home : Reached W files home d home
  | step (k j : File) (e e' : E) : Reached W files home d k → files[k]? = some e →
      d.name W ∈ identifiers e → exportEnv (exportEnvs W files) k (d.name W) = some (.decl d) →
      files[j]? = some e' → k ∈ importsOf e' → Reached W files home d j

/-- Files import only files before them. -/
def Ordered (files : List E) : Prop :=
  ∀ j e, files[j]? = some e → ∀ k ∈ importsOf e, k < j

/-- The definition with another name. -/
def Decl.withName (new : Name) : Decl → Decl
  | .var s _ => .var s new
  | .func s _ => .func s new
  | d => d

/-- The meaning after the rename: the renamed definition is itself, the others are the same. -/
def Meaning.renamed (d : Decl) (new : Name) (m : Meaning) : Meaning :=
  if m = .decl d then .decl (d.withName new) else m

/-- The name is written nowhere in the project and is not in the library, and no file is
called so. -/
def Fresh (W : World) (files : List E) (new : Name) : Prop :=
  (∀ e ∈ files, new ∉ identifiers e) ∧ (∀ m, W.lib m new = none) ∧ ∀ f, W.stem f ≠ new

/-- A variable or a function. -/
def Decl.Named (d : Decl) : Prop := ∃ s n, d = .var s n ∨ d = .func s n

end Tinymist.Scoping
