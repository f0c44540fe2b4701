import Verif.Model.Workspace
import Verif.Spec.Paths
/-! Following a path inside a root. -/
namespace Tinymist.Workspace
open Paths

/-- Follow components from a directory inside a root (directories are relative to the root), or fail when they lead
above the root. A leading slash stands for the root. -/
def within (d : Dir) : List Comp → Option Dir
  | [] => some d
  | .root :: cs => within [] cs
  | .cur :: cs => within d cs
  | .parent :: cs => if d = [] then none else within d.dropLast cs
  | .normal n :: cs => within (d ++ [n]) cs

/-- The id tables a server can have: any sequence of requests for the ids of roots. -/
inductive Reachable : Interner → Prop
  | init : Reachable .init
  | step {i i' root id} (h : Reachable i) (hw : workspaceId i root = some (i', id)) : Reachable i'

/-- `i'` is the table some requests after `i`. -/
inductive Later : Interner → Interner → Prop
  | refl {i} : Later i i
  | step {i j k root id} (h : Later i j) (hw : workspaceId j root = some (k, id)) : Later i k

/-- The entry resolvers a server can have: any sequence of resolutions of absolute paths, in changing file systems. -/
inductive ResolverReachable (rootPath : Option Text) (roots : List Text) : Resolver → Prop
  | init : ResolverReachable rootPath roots ⟨rootPath, roots, []⟩
  | step {r} (h : ResolverReachable rootPath roots r) (hasToml : HasToml) (entry : Text)
      (he : isAbsolute entry = true) : ResolverReachable rootPath roots (r.root hasToml entry).1

end Tinymist.Workspace
