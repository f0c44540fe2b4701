import Verif.Spec.Workspace

/-!
# Which root an opened file gets
-/

namespace Tinymist.Workspace

open Paths

/-- A file is in a directory: the names of the directory are the first names of the file. -/
def InDir (dir entry : Text) : Prop := components dir <+: components entry

/-- The directory (or the file itself) given by the first `k` names of an absolute path. -/
def upTo (ns : List Text) (k : Nat) : Text := collect (.root :: (ns.take k).map Comp.normal)

/-- The nearest place from the file upwards that has a `typst.toml`. -/
def NearestPackage (hasToml : HasToml) (ns : List Text) (dir : Text) : Prop :=
  ∃ k ≤ ns.length, dir = upTo ns k ∧ hasToml dir = true ∧ ∀ j, k < j → j ≤ ns.length → hasToml (upTo ns j) = false

/-- There is no package. -/
def NoPackage (hasToml : HasToml) (ns : List Text) : Prop := ∀ j ≤ ns.length, hasToml (upTo ns j) = false

/-- The root a file at the absolute path with the given names should have. -/
inductive RootFor (rootPath : Option Text) (roots : List Text) (hasToml : HasToml) (entry : Text) (ns : List Text) : Text → Prop
  /-- The configured root, if the file is in it. -/
  | configured (x) (h : rootPath = some x) (hi : InDir x entry) : RootFor rootPath roots hasToml entry ns x
  /-- The directory of the file, if it is not. -/
  | outside (x) (h : rootPath = some x) (hi : ¬ InDir x entry) :
      RootFor rootPath roots hasToml entry ns (upTo ns (ns.length - 1))
  /-- Without a configured root, the first folder of the workspace that the file is in. -/
  | folder (pre x post) (h : rootPath = none) (hr : roots = pre ++ x :: post) (hp : ∀ y ∈ pre, ¬ InDir y entry)
      (hi : InDir x entry) : RootFor rootPath roots hasToml entry ns x
  /-- Outside of the workspace, the package that the file is in. -/
  | package (x) (h : rootPath = none) (hr : ∀ y ∈ roots, ¬ InDir y entry) (hn : NearestPackage hasToml ns x) :
      RootFor rootPath roots hasToml entry ns x
  /-- Outside of any package, the directory of the file. -/
  | directory (h : rootPath = none) (hr : ∀ y ∈ roots, ¬ InDir y entry) (hn : NoPackage hasToml ns) :
      RootFor rootPath roots hasToml entry ns (upTo ns (ns.length - 1))

/-- The resolvers after some absolute paths were resolved while no `typst.toml` appeared or went. -/
inductive SettledIn (hasToml : HasToml) (rootPath : Option Text) (roots : List Text) : Resolver → Prop
  | init : SettledIn hasToml rootPath roots ⟨rootPath, roots, []⟩
  | step {r} (h : SettledIn hasToml rootPath roots r) (entry : Text) (he : isAbsolute entry = true) :
      SettledIn hasToml rootPath roots (r.root hasToml entry).1

end Tinymist.Workspace
