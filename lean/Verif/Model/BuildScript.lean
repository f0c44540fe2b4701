import Verif.Model.Pages

/-!
# Build scripts

Models `shell_build_script` of `crates/tinymist/src/tool/project.rs` 184-361, which writes the tasks of a lock file as commands of a
shell, and what the command `tinymist compile` takes (`CompileArgs`, project.rs 23-35; `DocNewArgs` and `TaskCompileArgs`,
`crates/tinymist-project/src/args.rs` 21-250; `CompileFontArgs` and `CompilePackageArgs`, `crates/tinymist-world/src/args.rs` 17-51).

The parser of arguments is that of the crate clap, in so far as the script is concerned: options have their long names, with the
value behind an equal sign or in the next argument, which must not look like an option. Short options, `--help`, `--` and the
environment variables are left out.
-/

namespace Tinymist.BuildScript

abbrev Text := List Char

/-- `ResourcePath` (tinymist-task/src/primitives.rs 261). -/
structure Res where
  scheme : Text
  path : Text
  deriving DecidableEq, Repr

/-- What is done with paths: `rel` is `unix_slash` of the path relative to the directory of the lock file (`to_rel_path`,
primitives.rs 332-343), `user` is the path in `from_user_sys` (primitives.rs 305-314). -/
structure Env where
  rel : Text → Text
  user : Text → Text

/-- `ProjectInput` (tinymist-project/src/model.rs). -/
structure Input where
  id : Text
  main : Res
  root : Option Res
  inputs : List (Text × Text)
  fontPaths : List Res
  systemFonts : Bool
  packagePath : Option Res
  packageCachePath : Option Res
  deriving DecidableEq, Repr

/-- `PdfStandard` (tinymist-world/src/args.rs 299-312). -/
inductive Standard
  | v17 | a2b | a3b
  deriving DecidableEq, Repr

/-- The names of standards (args.rs 301-311), the same for serde and for clap. -/
def Standard.text : Standard → Text
  | .v17 => "1.7".toList
  | .a2b => "a-2b".toList
  | .a3b => "a-3b".toList

/-- `ProjectTask` (tinymist-task/src/model.rs 60-80). The resolution and the fill of images are left out. -/
inductive Kind
  | preview
  | query (ext : Text)
  | pdf (standards : List Standard) (timestamp : Option Int)
  | png | svg | svgHtml | md | text | html
  deriving DecidableEq, Repr

/-- `TaskWhen` (tinymist-world/src/args.rs 234-251). -/
inductive When
  | never | onSave | onType | onDocumentHasTitle
  deriving DecidableEq, Repr

/-- `ApplyProjectTask` with its `ExportTask`. -/
structure Task where
  id : Text
  document : Text
  kind : Kind
  when : When
  output : Option Text
  transform : List Pages.Transform

/-- `LockFile`: documents and tasks. -/
structure Lock where
  document : List Input
  task : List Task

/-- `LockFile::get_document` (tinymist-project/src/lock.rs 20-22). -/
def getDocument (l : Lock) (id : Text) : Option Input := l.document.find? fun i => i.id == id

/-- `ProjectTask::as_export` (model.rs 101-113). -/
def asExport : Kind → Bool
  | .preview => false
  | _ => true

/-- `ProjectTask::extension` (model.rs 116-130). -/
def extension : Kind → Text
  | .pdf .. => "pdf".toList
  | .preview => "html".toList
  | .svgHtml => "html".toList
  | .html => "html".toList
  | .md => "md".toList
  | .text => "txt".toList
  | .svg => "svg".toList
  | .png => "png".toList
  | .query ext => ext

/-- `quote_escape` (project.rs 223). -/
def quoteEscape (s : Text) : Text := s.flatMap fun c => if c = '\'' then ['\'', '"', '\'', '"', '\''] else [c]

/-- `quote` (project.rs 224). -/
def quote (s : Text) : Text := ['\''] ++ quoteEscape s ++ ['\'']

/-- `path_of` (project.rs 226-233). -/
def pathOf (env : Env) (r : Res) : Text := if r.scheme = "file".toList then quote (env.rel r.path) else []

/-- `i64::to_string`. -/
def showInt : Int → Text
  | .ofNat n => RustNum.print 10 n
  | .negSucc n => '-' :: RustNum.print 10 (n + 1)

/-- A word and its value, if there is one. -/
def optional (name : Text) (v : Option Text) : List Text :=
  match v with
  | some v => [name, v]
  | none => []

/-- The words of a transform (project.rs 299-312). -/
def transformWords : Pages.Transform → List Text
  | .pretty => ["--pretty".toList]
  | .pages rs => rs.flatMap fun r => ["--pages".toList, Pages.showPages r]
  | .merge _ => []
  | .script => []

/-- The words of a kind (project.rs 314-346). A standard is written as JSON. -/
def kindWords : Kind → List Text
  | .preview => []
  | .query _ => []
  | .pdf standards timestamp => ["--format=pdf".toList] ++
    standards.flatMap (fun s => ["--pdf-standard".toList, ['"'] ++ s.text ++ ['"']]) ++
    optional "--creation-timestamp".toList (timestamp.map showInt)
  | .svg => ["--format=svg".toList]
  | .svgHtml => ["--format=svg_html".toList]
  | .md => ["--format=md".toList]
  | .png => ["--format=png".toList]
  | .text => ["--format=txt".toList]
  | .html => ["--format=html".toList]

/-- The words of the command of a task (project.rs 252-346). -/
def commandWords (env : Env) (input : Input) (t : Task) : List Text :=
  ["tinymist".toList, "compile".toList, "--save-lock".toList, "--task".toList, quote t.id, pathOf env input.main] ++
  optional "--root".toList (input.root.map (pathOf env)) ++
  input.inputs.map (fun kv => "--input='".toList ++ quoteEscape kv.1 ++ ['='] ++ quoteEscape kv.2 ++ ['\'']) ++
  input.fontPaths.flatMap (fun p => ["--font-path".toList, pathOf env p]) ++
  (if input.systemFonts then [] else ["--ignore-system-fonts".toList]) ++
  optional "--package-path".toList (input.packagePath.map (pathOf env)) ++
  optional "--package-cache-path".toList (input.packageCachePath.map (pathOf env)) ++
  optional "--output".toList (t.output.map quote) ++
  t.transform.flatMap transformWords ++
  kindWords t.kind

/-- `join(" ")`. -/
def joinWords : List Text → Text
  | [] => []
  | [w] => w
  | w :: v :: rest => w ++ ' ' :: joinWords (v :: rest)

/-- What is written for a task (project.rs 237-358). -/
def taskScript (env : Env) (l : Lock) (t : Task) : Text :=
  match getDocument l t.document with
  | none => []
  | some input =>
    if asExport t.kind then
      "# From ".toList ++ t.document ++ " to ".toList ++ t.id ++ " (".toList ++ extension t.kind ++ ")\n".toList ++
        joinWords (commandWords env input t) ++ ['\n']
    else []

/-- `Shell` of those that are supported (project.rs 165-178); PowerShell has no first line and is left out. -/
inductive Shell
  | bash | zsh

/-- `shell_build_script` (project.rs 184-361). -/
def script (env : Env) (shell : Shell) (l : Lock) : Text :=
  (match shell with
  | .bash => "#!/usr/bin/env bash\n\n".toList
  | .zsh => "#!/usr/bin/env zsh\n\n".toList) ++ l.task.flatMap (taskScript env l)

/-! ## The command line -/

/-- The options of `tinymist compile`. -/
inductive Name
  | saveLock | ignoreSystemFonts
  | lockfile | name | root | fontPath | packagePath | packageCachePath | task | when | format | pages | pdfStandard | ppi
  deriving DecidableEq, Repr

def Name.all : List Name :=
  [.saveLock, .ignoreSystemFonts, .lockfile, .name, .root, .fontPath, .packagePath, .packageCachePath, .task, .when, .format, .pages,
    .pdfStandard, .ppi]

/-- How an option is written (args.rs 27-250, tinymist-world/src/args.rs 19-49, project.rs 29-34). -/
def Name.text : Name → Text
  | .saveLock => "--save-lock".toList
  | .ignoreSystemFonts => "--ignore-system-fonts".toList
  | .lockfile => "--lockfile".toList
  | .name => "--name".toList
  | .root => "--root".toList
  | .fontPath => "--font-path".toList
  | .packagePath => "--package-path".toList
  | .packageCachePath => "--package-cache-path".toList
  | .task => "--task".toList
  | .when => "--when".toList
  | .format => "--format".toList
  | .pages => "--pages".toList
  | .pdfStandard => "--pdf-standard".toList
  | .ppi => "--ppi".toList

def Name.takesValue : Name → Bool
  | .saveLock => false
  | .ignoreSystemFonts => false
  | _ => true

def nameOf (t : Text) : Option Name := Name.all.find? fun n => n.text == t

/-- Whether an argument looks like an option. A single hyphen does not. -/
def hyphen (a : Text) : Bool := a.head? == some '-' && a != ['-']

/-- How an argument begins. -/
inductive Start
  | positional
  | bare (n : Name)
  | inline (n : Name) (v : Text)

/-- An argument on its own; `none` if it is refused. -/
def start (a : Text) : Option Start :=
  if hyphen a then
    match nameOf (a.takeWhile (· ≠ '=')) with
    | none => none
    | some n =>
      match a.dropWhile (· ≠ '=') with
      | [] => some (.bare n)
      | _ :: v => if n.takesValue then some (.inline n v) else none
  else some .positional

/-- An argument with its value. -/
inductive Tok
  | flag (n : Name)
  | opt (n : Name) (v : Text)
  | pos (v : Text)
  deriving DecidableEq, Repr

/-- The arguments with their values; `none` if they are refused. -/
def tokens : List Text → Option (List Tok)
  | [] => some []
  | [a] =>
    match start a with
    | none => none
    | some .positional => some [.pos a]
    | some (.inline n v) => some [.opt n v]
    | some (.bare n) => if n.takesValue then none else some [.flag n]
  | a :: v :: rest =>
    match start a with
    | none => none
    | some .positional => (tokens (v :: rest)).map (.pos a :: ·)
    | some (.inline n x) => (tokens (v :: rest)).map (.opt n x :: ·)
    | some (.bare n) =>
      if n.takesValue then (if hyphen v then none else (tokens rest).map (.opt n v :: ·))
      else (tokens (v :: rest)).map (.flag n :: ·)

/-- The values of an option. -/
def values (n : Name) (ts : List Tok) : List Text :=
  ts.filterMap fun
    | .opt m v => if m = n then some v else none
    | _ => none

/-- The value of an option that may be given once; `none` if it is given more often. -/
def single (n : Name) (ts : List Tok) : Option (Option Text) :=
  match values n ts with
  | [] => some none
  | [v] => some (some v)
  | _ => none

/-- The positional arguments. -/
def positionals (ts : List Tok) : List Text :=
  ts.filterMap fun
    | .pos v => some v
    | _ => none

/-- `OutputFormat` (args.rs 266-279). -/
def parseFormat (v : Text) : Option Pages.Format :=
  if v = "pdf".toList then some .pdf
  else if v = "png".toList then some .png
  else if v = "svg".toList then some .svg
  else if v = "html".toList then some .html
  else none

def parseStandard (v : Text) : Option Standard :=
  if v = "1.7".toList then some .v17
  else if v = "a-2b".toList then some .a2b
  else if v = "a-3b".toList then some .a3b
  else none

def parseWhen (v : Text) : Option When :=
  if v = "never".toList then some .never
  else if v = "onSave".toList then some .onSave
  else if v = "onType".toList then some .onType
  else if v = "onDocumentHasTitle".toList then some .onDocumentHasTitle
  else none

/-- `ResourcePath::from_user_sys` (primitives.rs 305-314). -/
def fromUser (env : Env) (p : Text) : Res := ⟨"file".toList, env.user p⟩

/-- The task of a format (args.rs 217-233). -/
def kindOf (f : Pages.Format) (standards : List Standard) : Kind :=
  match Pages.taskKind f with
  | .exportPdf => .pdf standards none
  | .exportPng => .png
  | .exportSvg => .svg
  | .exportHtml => .html

/-- What the command line declares: the document (`to_input`, args.rs 40-79) and the task (`to_task`, args.rs 174-246). `none`: it is
refused. The parser takes no path without text. -/
def declared (env : Env) (args : List Text) : Option (Input × Task) := do
  let ts ← tokens args
  let name ← single .name ts
  let root ← single .root ts
  let pkg ← single .packagePath ts
  let cache ← single .packageCachePath ts
  let task ← single .task ts
  let when' ← (← single .when ts).elim (some none) fun v => (parseWhen v).map some
  let format ← (← single .format ts).elim (some none) fun v => (parseFormat v).map some
  let pages ← ((values .pages ts).flatMap (Pages.split ',')).mapM Pages.parsePages
  let standards ← ((values .pdfStandard ts).flatMap (Pages.split ',')).mapM parseStandard
  let (input, output) ← match positionals ts with
    | [i] => some (i, none)
    | [i, o] => some (i, some o)
    | _ => none
  let f ← Pages.outputFormat ⟨task, output, format, none⟩
  if ([input] ++ root.toList ++ values .fontPath ts ++ pkg.toList ++ cache.toList).contains [] then none
  let main := fromUser env input
  let id := name.getD (main.scheme ++ [':'] ++ main.path)
  some (⟨id, main, root.map (fromUser env), [], ((values .fontPath ts).flatMap (Pages.split ':')).map (fromUser env),
      !ts.contains (.flag .ignoreSystemFonts), pkg.map (fromUser env), cache.map (fromUser env)⟩,
    ⟨task.getD id, id, kindOf f standards, when'.getD .never, none, if values .pages ts = [] then [] else [.pages pages]⟩)

end Tinymist.BuildScript
