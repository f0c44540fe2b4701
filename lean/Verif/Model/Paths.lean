import Verif.Model.Pages
/-!
# Paths

Models the path functions of `crates/tinymist-std/src/path.rs`, resource paths
(`crates/tinymist-task/src/primitives.rs:303-357`), output path patterns (`primitives.rs:115-169`), workspace ids
(`crates/tinymist-vfs/src/path_mapper.rs`) and entry resolution (`crates/tinymist-project/src/entry.rs`) for Unix
paths. Texts are lists of characters (non-UTF-8 names are not modelled). What is used of Rust's `std::path`, of the
crates `path_clean` and `pathdiff` and of typst's `VirtualPath` is modelled from their documentation and is part of the
trusted base.
-/
namespace Tinymist.Paths
open Pages (split)

abbrev Text := List Char

/-- `std::path::Component` without Windows prefixes. -/
inductive Comp where
  | root
  | cur
  | parent
  | normal (name : Text)
  deriving DecidableEq, Repr

/-- A part of a path between slashes, other than `.`. -/
def toComp (p : Text) : Comp := if p = ['.', '.'] then .parent else .normal p

/-- The parts between slashes that are components: repeated slashes and inner dots are dropped (std). -/
def body (ps : List Text) : List Comp := (ps.filter fun p => p ≠ [] ∧ p ≠ ['.']).map toComp

/-- `Path::is_absolute` on Unix. -/
def isAbsolute (s : Text) : Bool := s.head? == some '/'

/-- `Path::components` (std): a leading dot of a relative path is kept. -/
def components (s : Text) : List Comp :=
  if isAbsolute s then .root :: body (split '/' s)
  else if (split '/' s).head? = some ['.'] then .cur :: body (split '/' s)
  else body (split '/' s)

/-- `Component::as_os_str`. -/
def compText : Comp → Text
  | .root => ['/']
  | .cur => ['.']
  | .parent => ['.', '.']
  | .normal n => n

/-- `Path::join` / `PathBuf::push` (std). -/
def join (base rel : Text) : Text :=
  if isAbsolute rel then rel
  else if base = [] ∨ base.getLast? = some '/' then base ++ rel
  else base ++ '/' :: rel

/-- Collecting components into a `PathBuf` (std). -/
def collect (cs : List Comp) : Text := cs.foldl (fun p c => join p (compText c)) []

/-- A `..` in `path_clean::clean`; the output so far is reversed. -/
def popStep : List Comp → List Comp
  | .root :: rest => .root :: rest
  | .normal _ :: rest => rest
  | out => .parent :: out

/-- The loop of `path_clean::clean`; the output so far is reversed. -/
def cleanStep (out : List Comp) : Comp → List Comp
  | .cur => out
  | .parent => popStep out
  | .root => .root :: out
  | .normal n => .normal n :: out

def cleanComps (cs : List Comp) : List Comp := (cs.foldl cleanStep []).reverse

/-- `path_clean::clean`, re-exported at path.rs:50. -/
def clean (s : Text) : Text :=
  match cleanComps (components s) with
  | [] => ['.']
  | cs => collect cs

/-! ## path.rs -/

/-- The loop of `unix_slash`, path.rs:11-38. -/
def slashStep (acc : Text × Bool) : Comp → Text × Bool
  | .root => (acc.1 ++ ['/'], false)
  | .cur => (acc.1, false)
  | .parent => (acc.1 ++ (if acc.2 then ['/'] else []) ++ ['.', '.'], true)
  | .normal n => (acc.1 ++ (if acc.2 then ['/'] else []) ++ n, true)

/-- `unix_slash`, path.rs:9-47. -/
def unixSlash (s : Text) : Text :=
  let res := ((components s).foldl slashStep ([], false)).1
  if res = [] then ['.'] else res

/-- `clean_for_diff`, path.rs:57-65. -/
def cleanForDiff (s : Text) : Text := if .parent ∈ components s ∨ .cur ∈ components s then clean s else s

/-- The loop of `pathdiff::diff_paths`; `comps` is what was pushed so far. -/
def diffLoop (comps : List Comp) : List Comp → List Comp → Option (List Comp)
  | [], [] => some comps
  | a :: as, [] => some (comps ++ a :: as)
  | [], _ :: bs => diffLoop (comps ++ [.parent]) [] bs
  | a :: as, b :: bs =>
    if comps = [] ∧ a = b then diffLoop comps as bs
    else if b = .cur then diffLoop (comps ++ [a]) as bs
    else if b = .parent then none
    else some (comps ++ .parent :: bs.map (fun _ => Comp.parent) ++ a :: as)

/-- `pathdiff::diff_paths(path, base)`. -/
def diffPaths (path base : Text) : Option Text :=
  if isAbsolute path ≠ isAbsolute base then (if isAbsolute path then some path else none)
  else (diffLoop [] (components path) (components base)).map collect

/-- `diff(fr, to)`, path.rs:54-68: the path of `fr` relative to the directory `to`. -/
def diff (fr to : Text) : Option Text := diffPaths (cleanForDiff fr) (cleanForDiff to)

/-! ## Resource paths -/

/-- The text of `ResourcePath::from_user_sys`, primitives.rs:305-314, in the current directory `cwd`; `none` when the
`unwrap` panics. -/
def fromUserSys (cwd inp : Text) : Option Text :=
  if isAbsolute inp then (diff inp cwd).map unixSlash else some (unixSlash inp)

/-- `ResourcePath::to_abs_path` of a file, primitives.rs:346-357. -/
def toAbsPath (base path : Text) : Text := if isAbsolute path then path else join base path

/-- `ResourcePath::to_rel_path` of a file, primitives.rs:332-343. -/
def toRelPath (base path : Text) : Text := if isAbsolute path then (diff path base).getD path else path

end Tinymist.Paths
