import Verif.Model.Workspace

/-!
# Renaming a file

Models the edits computed when a file of the workspace is renamed: `WillRenameFilesRequest` and `RenameRequest` for
paths (`crates/tinymist-query/src/will_rename_files.rs` 16-60, `rename.rs` 46-93), `RenameFileWorker` (`rename.rs`
117-309), with what they use of `construct_module_dependencies` (`syntax/module.rs` 22-61), of the imports a file is known
to have (`syntax/expr.rs` 545-640, 668-745, 821-825, 1225-1235), of the links in a file (`analysis/link_expr.rs` 70-203) and
of the index of its strings (`syntax/index.rs` 24-58).

All files are in one workspace; a file is known by the names of the directories above it, from the root, and its own.
String literals are known by their values. What is not a plain string literal is left out, as are strings of more than
65536 bytes, and file stems that are no identifiers.
-/

namespace Tinymist.Rename

open Paths Workspace

/-- What a string literal is used for: `import "..."`, which may be bare (without `as` and items, so that it defines a
variable), `include "..."`, or the argument of a function that reads a file, like `image`. -/
inductive Use where
  | importing (bare : Bool)
  | including
  | reading
  deriving DecidableEq

/-- A string literal that is a path. -/
structure Site where
  use : Use
  text : Text
  deriving DecidableEq

/-- A source file: where it is, its paths, and its other string literals. -/
structure File where
  dir : List Text
  name : Text
  sites : List Site
  strings : List Text

/-- The file's virtual path. -/
def File.path (f : File) : List Text := f.dir ++ [f.name]

/-- `resolve_id_by_path` (`crates/tinymist-analysis/src/syntax/import.rs` 6-32) for a file in `dir`; `none`: a package. -/
def resolveId (dir : List Text) (s : Text) : Option (List Comp) :=
  if s.head? = some '@' then none
  else if isAbsolute s then some (vpathNew s)
  else some ((components s).foldl vpathStep (dir.map Comp.normal).reverse).reverse

/-- The string means the file at `target`. -/
def targets (dir target : List Text) (s : Text) : Bool := resolveId dir s = some (target.map .normal)

/-- The files a file depends on are those it imports; `check_module_include` does not record its file. -/
def importsFile (f : File) (target : List Text) : Bool :=
  f.sites.any fun s => (match s.use with | .importing _ => true | _ => false) && targets f.dir target s.text

/-- `Path::file_stem` (std). -/
def stem (name : Text) : Text := if (Pages.extension name).isSome then ((name.reverse.dropWhile (· ≠ '.')).drop 1).reverse else name

/-- `file_stem` of a path. -/
def fileStem (s : Text) : Option Text := (fileName s).map stem

/-- A replacement of a path: the new string, and `as alias` after it. -/
structure Edit where
  text : Text
  alias : Option Text
  deriving DecidableEq, Repr

/-- `rename_path_expr` (`rename.rs` 269-309). -/
def renamePath (diff : Text) (bare : Bool) (old : Text) : Option Edit :=
  if bare = true ∧ fileName (clean (join old diff)) ≠ fileName old then
    (fileStem old).map fun a => ⟨unixSlash (clean (join old diff)), some a⟩
  else some ⟨unixSlash (clean (join old diff)), none⟩

/-- The bareness of an import (`rename.rs` 254-266). -/
def bareOf : Use → Bool
  | .importing b => b
  | _ => false

/-- `refs_in_file` looks at a path (`rename.rs` 174-199, 246-251): an import or include of the renamed file. -/
def isRef (f : File) (target : List Text) (s : Site) : Bool := s.use ≠ .reading && targets f.dir target s.text

/-- The index of a file's strings has the name (`index.rs` 32-50). -/
def indexed (f : File) (name : Text) : Bool :=
  (f.sites.map (·.text) ++ f.strings).any fun s => s.head? ≠ some '@' && (fileName s).getD [] = name

/-- `links_in_file` looks at a path (`rename.rs` 201-228). A link is kept with the id of the file it stands in
(`link_expr.rs` 197-202), and that is what is compared with the renamed file. -/
def isLink (f : File) (target : List Text) (s : Site) : Bool :=
  (match s.use with | .importing _ => false | _ => true) && s.text ≠ [] && s.text.head? ≠ some '@' && f.path = target

/-- The edit of a path in a file, if any (`RenameFileWorker::work`, `rename.rs` 159-172): the path is among the references
of a file known to depend on the renamed one, or among the links. `known` says which files were found in the workspace. -/
def editOf (known : List Text → Bool) (target : List Text) (diff : Text) (f : File) (s : Site) : Option Edit :=
  if known target && known f.path && importsFile f target && isRef f target s then renamePath diff (bareOf s.use) s.text
  else if known f.path && indexed f (target.getLast?.getD []) && isLink f target s then renamePath diff false s.text
  else none

/-- `WillRenameFilesRequest` for one pair of paths (`will_rename_files.rs` 25-41); `none`: no answer. -/
def willRename (known : List Text → Bool) (target : List Text) (left right : Text) (f : File) (s : Site) :
    Option (Option Edit) :=
  match diff right left with
  | none => none
  | some d => if isAbsolute d then none else some (editOf known target d f s)

/-- `RenameRequest` on a path (`rename.rs` 46-93): where the file goes, and the edit of a path. -/
def rename (known : List Text → Bool) (target : List Text) (oldPath refText newName : Text) (f : File) (s : Site) :
    Option (Text × Option Edit) :=
  match diff (if ['.', 't', 'y', 'p'].isSuffixOf newName then newName else newName ++ ['.', 't', 'y', 'p']) refText with
  | none => none
  | some d => if isAbsolute d then none else some (clean (join oldPath d), editOf known target d f s)

end Tinymist.Rename
