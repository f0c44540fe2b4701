import Std
import Verif.Model.RustNum
/-! Packages: finding and downloading them, crates/tinymist-package/src/registry/http.rs; listing them,
crates/tinymist-query/src/package.rs; offering them, crates/tinymist-query/src/analysis/completion/typst_specific.rs; starting a
project from one, crates/tinymist/src/tool/package/init.rs. What the network and the disk answer is an input. -/
namespace Tinymist.Packages

abbrev Text := List Char

/-- `PackageVersion` (typst). -/
structure Version where
  major : Nat
  minor : Nat
  patch : Nat
deriving DecidableEq, Repr

/-- `PackageSpec` (typst). -/
structure Spec where
  ns : Text
  name : Text
  version : Version
deriving DecidableEq, Repr

/-- How a version is printed (typst). -/
def Version.print (v : Version) : Text :=
  RustNum.print 10 v.major ++ '.' :: (RustNum.print 10 v.minor ++ '.' :: RustNum.print 10 v.patch)

/-- `str::split('.')`. -/
def splitDots : Text → List Text
  | [] => [[]]
  | c :: cs =>
    if c = '.' then [] :: splitDots cs
    else
      match splitDots cs with
      | p :: ps => (c :: p) :: ps
      | [] => [[c]]

def u32Max : Nat := 4294967295

/-- `PackageVersion::from_str` (typst): three numbers. -/
def parseVersion (t : Text) : Option Version :=
  match splitDots t with
  | [a, b, c] =>
    match RustNum.parse 10 u32Max a, RustNum.parse 10 u32Max b, RustNum.parse 10 u32Max c with
    | some a, some b, some c => some ⟨a, b, c⟩
    | _, _, _ => none
  | _ => none

/-- The directory of a package below the data or the cache directory, http.rs:163. -/
def subdir (s : Spec) : Text := s.ns ++ '/' :: (s.name ++ '/' :: s.version.print)

/-! Finding a package -/

section
variable {B : Type}

/-- What is in a directory: files by their path. -/
abbrev Dir (B : Type) := Text → Option B

/-- Writes one file. -/
def Dir.put (d : Dir B) (f : Text × B) : Dir B := fun x => if x = f.1 then some f.2 else d x

/-- What the server answers, http.rs:293-300. `archive`: the files in it, and whether it is read to its end without an error. -/
inductive Resp (B : Type) where
  | notFound
  | failed
  | archive (files : List (Text × B)) (ok : Bool)

inductive Result where
  | data
  | cache
  | notFound
  | network
  | malformed
deriving DecidableEq, Repr

/-- A call of `prepare_package` under way: what it does next. -/
inductive Phase (B : Type) where
  /-- looks into the data directory, 165-170 -/
  | data
  /-- looks into the cache directory, 172-176 -/
  | cache
  /-- sends the request, 287-300 -/
  | request
  /-- creates the directory of the package (`tar::Archive::unpack`) -/
  | create (files : List (Text × B)) (ok : Bool)
  /-- writes the next file -/
  | unpack (files : List (Text × B)) (ok : Bool)
  /-- removes the directory after an error, 306 -/
  | remove
  /-- looks at the directory again, 181 -/
  | final
  | ended (r : Result)

/-- What a call returned, and what was in the directory it named at that moment. -/
structure Ret (B : Type) where
  spec : Spec
  result : Result
  seen : Option (Dir B)

/-- The disk, the calls under way in the server, the packages requested from the network and what was returned. -/
structure St (B : Type) where
  data : Text → Option (Dir B)
  cache : Text → Option (Dir B)
  calls : List (Spec × Phase B)
  requests : List Spec
  returned : List (Ret B)

def St.setCache (s : St B) (k : Text) (d : Option (Dir B)) : St B :=
  { s with cache := fun x => if x = k then d else s.cache x }

def St.at (s : St B) (i : Nat) (spec : Spec) (p : Phase B) : St B := { s with calls := s.calls.set i (spec, p) }

def St.give (s : St B) (i : Nat) (spec : Spec) (r : Result) (seen : Option (Dir B)) : St B :=
  { s with calls := s.calls.set i (spec, .ended r), returned := s.returned ++ [⟨spec, r, seen⟩] }

def previewNs : Text := ['p', 'r', 'e', 'v', 'i', 'e', 'w']

/-- One step of `prepare_package`, http.rs:162-189, and `download_package`, 284-312. `resp` is what the server answers, `fails`
whether the disk refuses. Removing a directory is taken as one step. Both directories are configured. -/
def move (s : St B) (i : Nat) (resp : Resp B) (fails : Bool) : St B :=
  match s.calls[i]? with
  | none => s
  | some (spec, p) =>
    match p with
    | .data =>
      match s.data (subdir spec) with
      | some d => s.give i spec .data (some d)
      | none => s.at i spec .cache
    | .cache =>
      match s.cache (subdir spec) with
      | some d => s.give i spec .cache (some d)
      | none => if spec.ns = previewNs then s.at i spec .request else s.give i spec .notFound none
    | .request =>
      let s := { s with requests := s.requests ++ [spec] }
      match resp with
      | .notFound => s.give i spec .notFound none
      | .failed => s.give i spec .network none
      | .archive files ok => s.at i spec (.create files ok)
    | .create files ok =>
      if fails then s.at i spec .remove
      else
        match s.cache (subdir spec) with
        | some _ => s.at i spec (.unpack files ok)
        | none => (s.setCache (subdir spec) (some fun _ => none)).at i spec (.unpack files ok)
    | .unpack (f :: files) ok =>
      if fails then s.at i spec .remove
      else
        match s.cache (subdir spec) with
        | some d => (s.setCache (subdir spec) (some (d.put f))).at i spec (.unpack files ok)
        | none => s.at i spec .remove
    | .unpack [] true => s.at i spec .final
    | .unpack [] false => s.at i spec .remove
    | .remove =>
      if fails then s.give i spec .malformed (s.cache (subdir spec))
      else (s.setCache (subdir spec) none).give i spec .malformed none
    | .final =>
      match s.cache (subdir spec) with
      | some d => s.give i spec .cache (some d)
      | none => s.give i spec .notFound none
    | .ended _ => s

inductive Op (B : Type) where
  /-- a compilation, a completion or a command wants a package -/
  | call (spec : Spec)
  | move (i : Nat) (resp : Resp B) (fails : Bool)
  /-- the server is killed and started again -/
  | crash
  /-- someone changes the data directory -/
  | install (k : Text) (d : Option (Dir B))

def step (s : St B) : Op B → St B
  | .call spec => { s with calls := s.calls ++ [(spec, .data)] }
  | .move i resp fails => move s i resp fails
  | .crash => { s with calls := [] }
  | .install k d => { s with data := fun x => if x = k then d else s.data x }

def run (s : St B) (ops : List (Op B)) : St B := ops.foldl step s

/-- A server that starts. -/
def init (data cache : Text → Option (Dir B)) : St B := ⟨data, cache, [], [], []⟩

end

/-! The index -/

/-- The index of the packages of the preview namespace, kept once it was asked for, http.rs:225-277. -/
structure Index where
  index : Option (List Spec)
  requests : Nat

/-- `download_index`, http.rs:230-277: `resp` is what the server answers, `none` if it cannot be reached or is not understood.
Callers at the same time wait (`OnceLock`). -/
def Index.download (x : Index) (resp : Option (List Spec)) : List Spec × Index :=
  match x.index with
  | some l => (l, x)
  | none => (resp.getD [], ⟨some (resp.getD []), x.requests + 1⟩)

/-- Asks several times. -/
def Index.downloads (x : Index) : List (Option (List Spec)) → List (List Spec) × Index
  | [] => ([], x)
  | r :: rs => ((x.download r).1 :: ((x.download r).2.downloads rs).1, ((x.download r).2.downloads rs).2)

/-! Versions -/

/-- The order of versions (typst). -/
def Version.cmp : Version → Version → Ordering :=
  compareLex (compareOn Version.major) (compareLex (compareOn Version.minor) (compareOn Version.patch))

/-- `Iterator::max`. -/
def maxVersion : List Version → Option Version
  | [] => none
  | v :: vs =>
    match maxVersion vs with
    | none => some v
    | some w => if v.cmp w = .gt then some v else some w

/-- `determine_latest_version`, http.rs:192-223. `index` is the index of the preview namespace, `entries` the names in a directory
below the data directory. -/
def latest (index : List Spec) (entries : Text → List Text) (ns name : Text) : Option Version :=
  if ns = previewNs then maxVersion ((index.filter fun p => p.name = name).map (·.version))
  else maxVersion ((entries (ns ++ '/' :: name)).filterMap parseVersion)

/-! Listing -/

/-- The data or the cache directory, as far as `read_dir` tells: names of directories below `ns`, and below `ns/name`. -/
structure Tree where
  names : Text → List Text
  versions : Text → Text → List Text

/-- `list_package_by_namespace`, package.rs:79-147, for one of the directories. -/
def listIn (t : Tree) (ns : Text) : List (Text × Spec) :=
  ((t.names ns).filter fun n => n.head? ≠ some '.').flatMap fun n =>
    ((t.versions ns n).filter fun v => v.head? ≠ some '.').filterMap fun v =>
      (parseVersion v).map fun w => (ns ++ '/' :: (n ++ '/' :: v), ⟨ns, n, w⟩)

/-- `list_package_by_namespace`: data directory first, then cache, as `paths`, http.rs:89-93. The flag tells which. -/
def listPackages (data cache : Tree) (ns : Text) : List (Bool × Text × Spec) :=
  (listIn data ns).map (fun x => (false, x)) ++ (listIn cache ns).map (fun x => (true, x))

/-! Offering -/

/-- The key packages are sorted by, typst_specific.rs:45. -/
def Spec.cmp : Spec → Spec → Ordering :=
  compareLex (compareOn Spec.ns) (compareLex (compareOn Spec.name) fun a b => b.version.cmp a.version)

/-- `Vec::dedup_by_key` by namespace and name: keeps the first of each run. -/
def dedup : List Spec → List Spec
  | [] => []
  | [a] => [a]
  | a :: b :: l => if a.ns = b.ns ∧ a.name = b.name then dedup (a :: l) else a :: dedup (b :: l)
termination_by l => l.length

/-- Drops what was offered already: `seen_casts`, typst_specific.rs:187-189. Hashes are taken to differ. -/
def fresh : List Spec → List Spec → List Spec
  | _, [] => []
  | seen, a :: l => if a ∈ seen then fresh seen l else a :: fresh (a :: seen) l

/-- `package_completions`, typst_specific.rs:30-57: `packages` are those of the index and the local ones. -/
def offer (packages : List Spec) (allVersions : Bool) : List Spec :=
  let sorted := packages.mergeSort fun a b => (a.cmp b).isLE
  fresh [] (if allVersions then sorted else dedup sorted)

/-! Starting a project -/

/-- What is at a path of the disk. -/
inductive Node (B : Type) where
  | file (b : B)
  | dir
deriving DecidableEq

abbrev Path := List Text

/-- The disk: paths as lists of components. -/
abbrev Disk (B : Type) := Path → Option (Node B)

/-- `create_dir_all`: the directory `base` and those on the way down `rest`. Fails if one of them is a file; what was created
before stays. -/
def mkdirs {B : Type} (d : Disk B) (base : Path) (rest : List Text) : Disk B × Bool :=
  match d base with
  | some (.file _) => (d, false)
  | some .dir =>
    match rest with
    | [] => (d, true)
    | c :: cs => mkdirs d (base ++ [c]) cs
  | none =>
    match rest with
    | [] => (fun x => if x = base then some .dir else d x, true)
    | c :: cs => mkdirs (fun x => if x = base then some .dir else d x) (base ++ [c]) cs

/-- `File::create` and `write_all`. -/
def writeFile {B : Type} (d : Disk B) (p : Path) (b : B) : Option (Disk B) :=
  match d p with
  | some .dir => none
  | _ => some fun x => if x = p then some (.file b) else d x

/-- The loop of `scaffold_project`, init.rs:119-136: copies the files, given by the path below the template directory; stops at the
first error. Returns the disk and whether all were copied. -/
def copyFiles {B : Type} (d : Disk B) (project : Path) : List (Path × B) → Disk B × Bool
  | [] => (d, true)
  | (rel, b) :: files =>
    match mkdirs d [] (project ++ rel.dropLast) with
    | (d', false) => (d', false)
    | (d', true) =>
      match writeFile d' (project ++ rel) b with
      | none => (d', false)
      | some d'' => copyFiles d'' project files

/-- `scaffold_project`, init.rs:76-139. `empty` is what `read_dir` found of the project directory; reading the template is taken to
succeed. -/
def scaffold {B : Type} (d : Disk B) (project : Path) (empty : Bool) (files : List (Path × B)) : Disk B × Bool :=
  match d project with
  | some (.file _) => (d, false)
  | some .dir => if empty then copyFiles d project files else (d, false)
  | none => copyFiles d project files

end Tinymist.Packages
