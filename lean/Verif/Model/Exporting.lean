import Verif.Model.PathPattern
import Verif.Model.Pages
/-!
# Exporting a document

Models `ExportTask::do_export` with `parse_color`, `extra_compile_for_export` and `serialize` (`crates/tinymist/src/task/export.rs` 132-317,
353-413), `ProjectTask::as_export` and `extension` (`crates/tinymist-task/src/model.rs` 101-131), `get_page_selection`
(`crates/tinymist-task/src/compute.rs` 300-321) and the request for an export (`on_export`, `crates/tinymist/src/server.rs` 444-495).

Renderers, compilations, the syntax of lengths and of hexadecimal colours are parameters (`Tools`), and so are what the file system says and
whether its calls succeed (`Disk`). Simplified: `Path::with_extension` and `Path::parent` are for absolute paths without `.`, `..` and trailing
slashes, as `substitute` returns them; resolutions are whole numbers of millionths of a pixel per inch; messages of errors are dropped.
-/

namespace Tinymist.Exporting
open Pages (Transform)
open Workspace (EntryState)

abbrev Text := List Char

/-- `TypstDocument`: a paged document is its pages. -/
inductive Doc (Pg H : Type) where
  | paged (pages : List Pg)
  | html (h : H)

/-- `Color` (typst), as far as the names of `parse_color` go. -/
inductive Color where
  | black | white | red | green | blue
  | hex (digits : Text)
  deriving DecidableEq, Repr

/-- What `serialize` is given: a value or a list of values. -/
inductive Data (V : Type) where
  | one (v : V)
  | many (vs : List V)

/-- What is not modelled: the renderers, further compilations of the same world, queries and their values. `none` is an error. -/
structure Tools (Pg H El V Len B : Type) where
  empty : B
  pdf : List Pg → List Text → Option Nat → Option B
  html : H → Option B
  svgHtml : List Pg → B
  text : Doc Pg H → Option B
  markdown : Option B
  svgPage : Pg → B
  svgMerged : List Pg → Len → B
  pngPage : Pg → Int → Option B
  pngMerged : List Pg → Int → Len → Color → Option B
  compileHtml : Option H
  compilePaged : Option (List Pg)
  retrieve : Text → Doc Pg H → Option (List El)
  field : El → Text → Option V
  whole : El → V
  json : Data V → Option B
  jsonPretty : Data V → Option B
  yaml : Data V → Option B
  /-- the text of a value that is a string -/
  string : V → Option B
  hexOk : Text → Bool
  length : Text → Option Len
  noGap : Len

/-- `ProjectTask` (model.rs 59-80) without what all exports share. -/
inductive Kind where
  | preview
  | pdf (standards : List Text) (stamp : Option Nat)
  | png (ppi : Int) (fill : Option Text)
  | svg
  | html
  | svgHtml
  | md
  | text
  | query (format : Text) (outputExtension : Option Text) (selector : Text) (field : Option Text) (one : Bool)
  deriving DecidableEq, Repr

/-- A task and its `ExportTask` (model.rs 143-154). -/
structure Task where
  kind : Kind
  output : Option Text
  transform : List Transform

/-- `ProjectTask::extension` (model.rs 116-131). -/
def Kind.extension : Kind → Text
  | .pdf .. => ['p', 'd', 'f']
  | .preview | .svgHtml | .html => ['h', 't', 'm', 'l']
  | .md => ['m', 'd']
  | .text => ['t', 'x', 't']
  | .svg => ['s', 'v', 'g']
  | .png .. => ['p', 'n', 'g']
  | .query format ext _ _ _ => ext.getD format

/-- The last component of a path (see above); empty for the root. -/
def lastSeg (p : Text) : Text := (p.reverse.takeWhile (· ≠ '/')).reverse

/-- The path up to and including the slash before the last component. -/
def dirSlash (p : Text) : Text := (p.reverse.dropWhile (· ≠ '/')).reverse

/-- `Path::file_stem` (std) of a file name. -/
def stem (n : Text) : Text :=
  match n.reverse.dropWhile (· ≠ '.') with
  | [] => n
  | _ :: b => if b.isEmpty then n else b.reverse

/-- `Path::with_extension` (std). -/
def withExtension (p ext : Text) : Text :=
  if lastSeg p = [] then p
  else dirSlash p ++ stem (lastSeg p) ++ (if ext = [] then [] else '.' :: ext)

/-- `Path::parent` (std): nothing for the root. -/
def parentDir (p : Text) : Option Text :=
  if lastSeg p = [] then none
  else if dirSlash p = ['/'] then some ['/'] else some (dirSlash p).dropLast

/-- `Path::is_relative` on Unix. -/
def isRelative : Text → Bool
  | '/' :: _ => false
  | _ => true

section
variable {Pg H El V Len B : Type} (t : Tools Pg H El V Len B)

/-- `parse_color` (export.rs 353-365). -/
def parseColor (fill : Text) : Option Color :=
  if fill = ['b', 'l', 'a', 'c', 'k'] then some .black
  else if fill = ['w', 'h', 'i', 't', 'e'] then some .white
  else if fill = ['r', 'e', 'd'] then some .red
  else if fill = ['g', 'r', 'e', 'e', 'n'] then some .green
  else if fill = ['b', 'l', 'u', 'e'] then some .blue
  else
    match fill with
    | '#' :: digits => if t.hexOk digits then some (.hex digits) else none
    | _ => none

/-- The loop of `get_page_selection` (compute.rs 307-318): the gap of the last `Merge`, and an error for any that is no length. -/
def mergedGap : Len → List Transform → Option Len
  | acc, [] => some acc
  | _, .merge none :: ts => mergedGap t.noGap ts
  | _, .merge (some g) :: ts =>
    match t.length g with
    | none => none
    | some l => mergedGap l ts
  | acc, _ :: ts => mergedGap acc ts

/-- `get_page_selection` (compute.rs 300-321). -/
def pageSelection (ts : List Transform) : Option (Bool × Len) :=
  if Pages.isFirst ts then some (true, t.noGap)
  else (mergedGap t t.noGap ts).map fun g => (false, g)

/-- `html_doc` (export.rs 189-199). -/
def htmlDoc : Doc Pg H → Option H
  | .html h => some h
  | .paged _ => t.compileHtml

/-- `paged_doc` (export.rs 201-211). -/
def pagedDoc : Doc Pg H → Option (List Pg)
  | .paged ps => some ps
  | .html _ => t.compilePaged

/-- `serialize` (export.rs 388-413). -/
def serialize (data : Data V) (format : Text) (pretty : Bool) : Option B :=
  if format = ['j', 's', 'o', 'n'] then (if pretty then t.jsonPretty data else t.json data)
  else if format = ['y', 'a', 'm', 'l'] then t.yaml data
  else if format = ['t', 'x', 't'] then
    match data with
    | .one v => t.string v
    | .many _ => none
  else none

/-- The values of a query (export.rs 240-247). -/
def mapped (field : Option Text) (els : List El) : List V :=
  els.filterMap fun c =>
    match field with
    | some f => t.field c f
    | none => some (t.whole c)

/-- The arm `Query` (export.rs 224-256); `pretty` is false in the code. -/
def queryBytes (doc : Doc Pg H) (format selector : Text) (field : Option Text) (one : Bool) : Option B :=
  match t.retrieve selector doc with
  | none => none
  | some els =>
    if one && els.length ≠ 1 then none
    else if one then
      match mapped t field els with
      | [] => none
      | v :: _ => serialize t (.one v) format false
    else serialize t (.many (mapped t field els)) format false

/-- The arm `ExportSvg` (export.rs 275-283). -/
def svgBytes (ts : List Transform) (doc : Doc Pg H) : Option B :=
  match pageSelection t ts with
  | none => none
  | some (true, _) =>
    match pagedDoc t doc with
    | some (p :: _) => some (t.svgPage p)
    | _ => none
  | some (false, gap) => (pagedDoc t doc).map fun ps => t.svgMerged ps gap

/-- `fill` of the arm `ExportPng` (export.rs 290-294). -/
def fillOf : Option Text → Option Color
  | some f => parseColor t f
  | none => some .white

/-- The arm `ExportPng` (export.rs 284-310). -/
def pngBytes (ts : List Transform) (ppi : Int) (fill : Option Text) (doc : Doc Pg H) : Option B :=
  if ppi ≤ 1 then none
  else
    match fillOf t fill with
    | none => none
    | some color =>
      match pageSelection t ts with
      | none => none
      | some (true, _) =>
        match pagedDoc t doc with
        | some (p :: _) => t.pngPage p ppi
        | _ => none
      | some (false, gap) =>
        match pagedDoc t doc with
        | some ps => t.pngMerged ps ppi gap color
        | none => none

/-- The data to write (export.rs 182-312). -/
def contents (task : Task) (doc : Doc Pg H) : Option B :=
  match task.kind with
  | .preview => some t.empty
  | .pdf standards stamp =>
    match pagedDoc t doc with
    | some ps => t.pdf ps standards stamp
    | none => none
  | .query format _ selector field one => queryBytes t doc format selector field one
  | .html =>
    match htmlDoc t doc with
    | some h => t.html h
    | none => none
  | .svgHtml => (pagedDoc t doc).map t.svgHtml
  | .text => t.text doc
  | .md => t.markdown
  | .svg => svgBytes t task.transform doc
  | .png ppi fill => pngBytes t task.transform ppi fill doc

/-- What the file system says and does: `is_dir`, `exists`, and whether creating a directory and writing a file succeed. -/
structure Disk where
  isDir : Text → Bool
  present : Text → Bool
  mkdirOk : Bool
  writeOk : Bool

/-- What an export does to the world around it. -/
inductive Effect (B : Type) where
  | mkdirs (dir : Text)
  /-- the task is put into the lock file of a directory (export.rs 165-177) -/
  | lock (dir : Text)
  /-- `write_atomic` that succeeded -/
  | write (path : Text) (data : B)
  /-- the materials and the route are put into the lock file (server.rs 449-462) -/
  | lockDeps (dir : Text)
  /-- the file is opened with the program of the system -/
  | opened (path : Text)

inductive Outcome where
  | ok (path : Option Text)
  | error
  | panic
  deriving DecidableEq, Repr

/-- `do_export` (export.rs 132-317) after the path is known (164-316): `lockDir` is the directory of the lock file, if there is one and the
document can be put into it. -/
def exportTo (disk : Disk) (task : Task) (doc : Option (Doc Pg H)) (lockDir : Option Text) (writeTo : Text) :
    List (Effect B) × Outcome :=
  let needsDir := (parentDir writeTo).filter fun d => !disk.present d
  if needsDir.isSome && !disk.mkdirOk then ([], .error)
  else
    let before := (needsDir.toList.map Effect.mkdirs) ++ lockDir.toList.map Effect.lock
    match doc with
    | none => (before, .error)
    | some doc =>
      match contents t task doc with
      | none => (before, .error)
      | some data =>
        if disk.writeOk then (before ++ [.write writeTo data], .ok (some writeTo)) else (before, .error)

/-- `do_export` (export.rs 132-317); `tmp` is the directory for temporary files. -/
def doExport (disk : Disk) (tmp : Text) (entry : EntryState) (task : Task) (doc : Option (Doc Pg H)) (lockDir : Option Text) :
    List (Effect B) × Outcome :=
  if task.kind = .preview then ([], .panic)
  else
    match PathPattern.substitute tmp (task.output.getD []) entry with
    | none => ([], .ok none)
    | some writeTo =>
      if isRelative writeTo then ([], .error)
      else if disk.isDir writeTo then ([], .error)
      else exportTo t disk task doc lockDir (withExtension writeTo task.kind.extension)

/-- `CompiledArtifact::from_graph` (crates/tinymist-project/src/compiler.rs 88-103) as `on_export` calls it: HTML exports compile to HTML, all others to pages;
no document if that fails. -/
def compiledFor (kind : Kind) : Option (Doc Pg H) :=
  if kind = .html then t.compileHtml.map .html else t.compilePaged.map .paged

/-- `on_export` (server.rs 444-495). -/
def onExport (disk : Disk) (tmp : Text) (entry : EntryState) (task : Task) (lockDir : Option Text) (openIt : Bool) :
    List (Effect B) × Outcome :=
  match doExport t disk tmp entry task (compiledFor t task.kind) lockDir with
  | (effs, .ok res) =>
    (effs ++ lockDir.toList.map Effect.lockDeps ++ (if openIt then res.toList.map Effect.opened else []), .ok res)
  | r => r

end

end Tinymist.Exporting
