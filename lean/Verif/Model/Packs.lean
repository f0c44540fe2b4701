/-!
# Packages as collections of files

Models crates/tinymist-package/src/pack.rs and crates/tinymist-package/src/pack/{memory,fs,ops,tarball}.rs: reading
every file of a package in a map, in a directory or in an archive, reading it through a filter, and copying it into a map
or into a directory.

Simplifications: contents are values of a type `D`; symbolic links, permissions and empty directories are not modelled,
so that a directory is whatever has a file below it; an archive is the list of its entries.
-/

namespace Tinymist.Packs

/-- A name of a file or of a directory. -/
abbrev Name := List Char

/-- A component of a path as `std::path::Path` reads it: a name, `..` or `.`. -/
inductive Comp where
  | name (n : Name)
  | up
  | cur
  deriving DecidableEq, Repr

/-- A path that comes with a file of a package (crates/tinymist-package/src/pack.rs:72, the `&str`). -/
structure Path where
  /-- It starts with the root. -/
  absolute : Bool
  comps : List Comp
  deriving DecidableEq, Repr

/-- A place on the disk: the names from the root. -/
abbrev Loc := List Name

/-- The files on the disk. -/
abbrev Disk (D : Type) := List (Loc × D)

/-- One component of a path followed from a place. -/
def follow (at_ : Loc) : Comp → Loc
  | .name n => at_ ++ [n]
  | .up => at_.dropLast
  | .cur => at_

/-- `base.join(path)` (crates/tinymist-package/src/pack/fs.rs:51) as the system finds it: an absolute path replaces the
base. -/
def join (base : Loc) (p : Path) : Loc :=
  p.comps.foldl follow (if p.absolute then [] else base)

/-- `HashMap::insert`, or the replacement of the contents of a file. -/
def put {K D : Type} [DecidableEq K] (m : List (K × D)) (k : K) (d : D) : List (K × D) :=
  (k, d) :: m.filter (fun e => e.1 ≠ k)

/-- How copying ends (crates/tinymist-package/src/pack/fs.rs:50-66): it ran to the end, or some file could not be
written and the copy stopped there. -/
inductive End where
  | done
  | failed
  deriving DecidableEq, Repr

/-- Whether a file can be created at a place (crates/tinymist-package/src/pack/fs.rs:52-53): nothing on the way there is
a file, the place is not a directory. The base and what is above it are directories. -/
def creatable {D : Type} (disk : Disk D) (base at_ : Loc) : Bool :=
  disk.all (fun e => !(e.1.isPrefixOf at_ && e.1 ≠ at_) && !(at_.isPrefixOf e.1 && e.1 ≠ at_)) && !at_.isPrefixOf base

/-- `DirPack::clone_into_pack` (crates/tinymist-package/src/pack/fs.rs:47-68). -/
def intoDir {D : Type} (base : Loc) : List (Path × D) → Disk D → Disk D × End
  | [], disk => (disk, .done)
  | (p, d) :: rest, disk =>
    if creatable disk base (join base p) then intoDir base rest (put disk (join base p) d) else (disk, .failed)

/-- `MapPack::clone_into_pack` (crates/tinymist-package/src/pack/memory.rs:38-55). The path is a key as it is. -/
def intoMap {D : Type} (es : List (Path × D)) (m : List (Path × D)) : List (Path × D) :=
  es.foldl (fun m e => put m e.1 e.2) m

/-- `FilterPack::read_all` (crates/tinymist-package/src/pack/ops.rs:16-29). -/
def filtered {D : Type} (f : Path → Bool) (es : List (Path × D)) : List (Path × D) :=
  es.filter (fun e => f e.1)

/-- The names that the walk of a directory leaves out (crates/tinymist-package/src/pack/fs.rs:90). -/
def hidden : Name → Bool
  | '.' :: _ => true
  | _ => false

/-- What a directory hands out for a file on the disk (crates/tinymist-package/src/pack/fs.rs:94-105): its path from the
base, when it is below it and no name on the way is left out. -/
def below {D : Type} (base : Loc) (e : Loc × D) : Option (Path × D) :=
  if base.isPrefixOf e.1 && !(e.1.drop base.length).any hidden then
    some ({ absolute := false, comps := (e.1.drop base.length).map .name }, e.2)
  else none

/-- `FilterDirPack::read_all` (crates/tinymist-package/src/pack/fs.rs:82-109). `filter_entry` (line 90) is also asked
about the base. The order is the order of `disk`; the real one is up to the system. -/
def readDir {D : Type} (base : Loc) (f : Path → Bool) (disk : Disk D) : List (Path × D) :=
  match base.getLast? with
  | some n => if hidden n then [] else (disk.filterMap (below base)).filter (fun e => f e.1)
  | none => (disk.filterMap (below base)).filter (fun e => f e.1)

/-- An entry of an archive: the name in its own header, which has room for a hundred bytes and a prefix; the whole name,
which stands in a record before it when it does not fit; and whether it is a plain file. -/
structure Entry (D : Type) where
  header : Path
  long : Option Path
  plain : Bool
  data : D
  deriving DecidableEq, Repr

/-- `TarballPack::read_all` (crates/tinymist-package/src/pack/tarball.rs:23-46). The path is taken from `header.path()`
(line 37), not from `entry.path()`. -/
def readArchive {D : Type} (es : List (Entry D)) : List (Path × D) :=
  es.filterMap (fun e => if e.plain then some (e.header, e.data) else none)

end Tinymist.Packs
