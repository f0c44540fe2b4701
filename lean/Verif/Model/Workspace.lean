import Verif.Model.Paths
import Verif.Model.RustNum
/-!
# Workspace ids, file ids and entry resolution

Models `crates/tinymist-vfs/src/path_mapper.rs`, `EntryState` (`crates/tinymist-world/src/entry.rs:19-130`) and
`EntryResolver` (`crates/tinymist-project/src/entry.rs:32-155`), for Unix paths.

typst's `VirtualPath` and `PackageSpec` are modelled from their documentation: a virtual path is the list of the
components after its leading slash, in which `..` only occur in front.
-/
namespace Tinymist.Workspace
open Paths RustNum

/-! ## typst -/

/-- `PackageSpec` (typst). -/
structure PackageSpec where
  ns : Text
  name : Text
  version : Nat × Nat × Nat
  deriving DecidableEq, Repr

/-- A `..` in `VirtualPath::new` (typst); the components so far are reversed. -/
def vpathPop : List Comp → List Comp
  | .normal _ :: rest => rest
  | out => .parent :: out

/-- The components of a virtual path, reversed, while it is built (typst). -/
def vpathStep (out : List Comp) : Comp → List Comp
  | .root => out
  | .cur => out
  | .normal n => .normal n :: out
  | .parent => vpathPop out

/-- `VirtualPath::new` (typst). -/
def vpathNew (s : Text) : List Comp := ((components s).foldl vpathStep []).reverse

/-- `PathBuf::pop` (std) on the components of a path: the root has no parent. -/
def pop (cs : List Comp) : List Comp := if cs.getLast? = some .root then cs else cs.dropLast

/-- The loop of `VirtualPath::resolve` (typst); lengths are those of the path's text. -/
def resolveLoop (rootLen : Nat) (out : List Comp) : List Comp → Option (List Comp)
  | [] => some out
  | .normal n :: cs => resolveLoop rootLen (out ++ [.normal n]) cs
  | .parent :: cs => if (collect (pop out)).length < rootLen then none else resolveLoop rootLen (pop out) cs
  | _ :: cs => resolveLoop rootLen out cs

/-- `VirtualPath::resolve` (typst). The root is a clean path (those of `Interner` are), so that its text is that of its
components. -/
def vpathResolve (root : Text) (v : List Comp) : Option Text :=
  (resolveLoop root.length (components root) v).map collect

/-- typst's `FileId`: a package and a virtual path. (Typst interns them; the interner is not modelled.) -/
structure FileId where
  package : Option PackageSpec
  vpath : List Comp
  deriving DecidableEq, Repr

/-! ## path_mapper.rs -/

/-- `Interner`, path_mapper.rs:151-154. `HashMap<ImmutPath, _>` compares paths by their components. -/
structure Interner where
  toId : List (Text × Nat)
  fromId : List Text

/-- path_mapper.rs:136-141. -/
def Interner.init : Interner := ⟨[], []⟩

/-- `u16::MAX`. -/
def u16Max : Nat := 65535

/-- `HashMap::get`, path_mapper.rs:181: paths are equal if their components are. -/
def Interner.lookup (i : Interner) (root : Text) : Option Nat :=
  (i.toId.find? fun e => components e.1 = components root).map (·.2)

/-- `workspace_id`, path_mapper.rs:174-195; `none` when it panics with "out of file ids". (`insert` replaces an equal
key, which puts the new entry in front here.) -/
def workspaceId (i : Interner) (root : Text) : Option (Interner × Nat) :=
  match i.lookup root with
  | some id => some (i, id)
  | none =>
    if i.fromId.length ≤ u16Max then
      some (⟨(clean root, i.fromId.length) :: i.toId, i.fromId ++ [clean root]⟩, i.fromId.length)
    else none

/-- `WORKSPACE_NS`, path_mapper.rs:160. -/
def wsNs : Text := ['w', 's']

/-- `WorkspaceId::package`, path_mapper.rs:99-105. -/
def wsPackage (id : Nat) : PackageSpec := ⟨wsNs, 'p' :: print 10 id, (0, 0, 0)⟩

/-- `WorkspaceId::untitled_root`, path_mapper.rs:107-113. -/
def wsUntitled (id : Nat) : PackageSpec := ⟨wsNs, 'p' :: print 10 id, (0, 0, 1)⟩

/-- `from_package_name`, path_mapper.rs:124-131. -/
def fromPackageName : Text → Option Nat
  | 'p' :: num => parse 10 u16Max num
  | _ => none

/-- `WorkspaceResolution`, path_mapper.rs:143-148; `bad` is the error. -/
inductive Resolution where
  | workspace (id : Nat)
  | untitledRooted (id : Nat)
  | rootless
  | package
  | bad
  deriving DecidableEq

/-- `WorkspaceResolver::resolve`, path_mapper.rs:230-249. -/
def resolve (f : FileId) : Resolution :=
  match f.package with
  | none => .rootless
  | some p =>
    if p.ns = wsNs then
      match fromPackageName p.name with
      | none => .bad
      | some id => if p.version = (0, 0, 1) then .untitledRooted id else .workspace id
    else .package

/-- `is_package_file`, path_mapper.rs:167-170. -/
def isPackageFile (f : FileId) : Bool := f.package.any fun p => p.ns ≠ wsNs

/-- Where a file is. -/
inductive Location where
  /-- A file on disk. -/
  | resolved (path : Text)
  /-- Not on disk. -/
  | rootless
  /-- `FileError::AccessDenied` or another `FileError`. -/
  | error
  /-- A panic: "invalid workspace id". -/
  | panic
  deriving DecidableEq

/-- `path_for_id`, path_mapper.rs:52-69; `pkgRoot` is `resolve_package_root`. -/
def pathForId (i : Interner) (pkgRoot : PackageSpec → Option Text) (f : FileId) : Location :=
  match resolve f with
  | .workspace id =>
    match i.fromId[id]? with
    | none => .panic
    | some root =>
      match vpathResolve root f.vpath with
      | some p => .resolved p
      | none => .error
  | .package =>
    match f.package.bind pkgRoot with
    | none => .error
    | some root =>
      match vpathResolve root f.vpath with
      | some p => .resolved p
      | none => .error
  | .untitledRooted _ => .rootless
  | .rootless => .rootless
  | .bad => .error

/-- `workspace_file`, path_mapper.rs:217-220. -/
def workspaceFile (i : Interner) (root : Option Text) (v : List Comp) : Option (Interner × FileId) :=
  match root with
  | none => some (i, ⟨none, v⟩)
  | some root => (workspaceId i root).map fun (i, id) => (i, ⟨some (wsPackage id), v⟩)

/-! ## Entries -/

/-- `EntryState`, entry.rs:22-29. -/
structure EntryState where
  root : Option Text
  main : Option FileId
  deriving DecidableEq

/-- `Path::parent` (std): `none` for the root and the empty path. -/
def parent (s : Text) : Option Text :=
  match (components s).getLast? with
  | none => none
  | some .root => none
  | some _ => some (collect (components s).dropLast)

/-- `Path::file_name` (std). -/
def fileName (s : Text) : Option Text :=
  match (components s).getLast? with
  | some (.normal n) => some n
  | _ => none

/-- `Path::strip_prefix` (std). -/
def stripPrefix (s root : Text) : Option Text :=
  if (components root).isPrefixOf (components s) then
    some (collect ((components s).drop (components root).length))
  else none

/-- `Path::ancestors` (std). -/
def ancestors (cs : List Comp) : List (List Comp) :=
  if h : cs = [] then [[]]
  else if cs.getLast? = some .root then [cs] else cs :: ancestors cs.dropLast
termination_by cs.length
decreasing_by
  have := List.length_pos_iff.mpr h
  simp; omega

/-- `new_rooted`, entry.rs:66-73. -/
def newRooted (i : Interner) (root : Text) (v : List Comp) : Option (Interner × EntryState) :=
  (workspaceFile i (some root) v).map fun (i, f) => (i, ⟨some root, some f⟩)

/-- `new_rooted_by_parent`, entry.rs:76-86: `some none` when the path has no file name. The id is created before the
file name is looked at only if there is one. -/
def newRootedByParent (i : Interner) (entry : Text) : Option (Interner × Option EntryState) :=
  match fileName entry with
  | none => some (i, none)
  | some n => (workspaceFile i (parent entry) (vpathNew n)).map fun (i, f) => (i, some ⟨parent entry, some f⟩)

/-- `EntryResolver`, project/entry.rs:32-43, with its cache. -/
structure Resolver where
  rootPath : Option Text
  roots : List Text
  /-- `typst_toml_cache`: the newest entry is in front. -/
  cache : List (Text × Option Text)

/-- `Path::exists` of `dir/typst.toml`. -/
abbrev HasToml := Text → Bool

/-- `typst_toml_cache.get`. -/
def Resolver.cached (r : Resolver) (entry : Text) : Option (Option Text) :=
  (r.cache.find? fun e => components e.1 = components entry).map (·.2)

/-- The cache miss of `EntryResolver::root`, project/entry.rs:84-99. -/
def Resolver.search (r : Resolver) (hasToml : HasToml) (entry : Text) : Resolver × Option Text :=
  match ((ancestors (components entry)).map collect).find? hasToml with
  | some a => ({ r with cache := (entry, some a) :: r.cache }, some a)
  | none =>
    let r' : Resolver := { r with cache := (entry, none) :: r.cache }
    match parent entry with
    | some p => (r', some p)
    | none => (r', r.roots.head?)

/-- `EntryResolver::root`, project/entry.rs:47-106, for a given entry. (`remove` of a stale cache entry is covered by
the newer entry that `search` adds.) -/
def Resolver.root (r : Resolver) (hasToml : HasToml) (entry : Text) : Resolver × Option Text :=
  match r.rootPath with
  | some root => (r, some root)
  | none =>
    match r.roots.find? fun root => (components root).isPrefixOf (components entry) with
    | some root => (r, some root)
    | none =>
      match r.cached entry with
      | some none => (r, none)
      | some (some c) => if hasToml c then (r, some c) else r.search hasToml entry
      | none => r.search hasToml entry

/-- `EntryResolver::root(None)`, project/entry.rs:47-50, 102-106. -/
def Resolver.defaultRoot (r : Resolver) : Option Text :=
  match r.rootPath with
  | some root => some root
  | none => r.roots.head?

/-- `resolve_with_root`, project/entry.rs:115-155, for a given entry. -/
def Resolver.resolveWithRoot (r : Resolver) (i : Interner) (root : Option Text) (entry : Text) :
    Option (Interner × EntryState) :=
  let fallback : EntryState := ⟨r.defaultRoot, none⟩
  match root.bind fun root => (stripPrefix entry root).map fun s => (root, s) with
  | some (root, s) => newRooted i root (vpathNew s)
  | none => (newRootedByParent i entry).map fun (i, e) => (i, e.getD fallback)

/-- `EntryResolver::resolve`, project/entry.rs:109-112, for a given entry. -/
def Resolver.resolve (r : Resolver) (hasToml : HasToml) (i : Interner) (entry : Text) :
    Resolver × Option (Interner × EntryState) :=
  ((r.root hasToml entry).1, r.resolveWithRoot i (r.root hasToml entry).2 entry)

end Tinymist.Workspace
