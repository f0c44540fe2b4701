import Verif.Model.BuildScript

/-!
# What a build script has to do

What a shell reads in a text, and which arguments say what a task of a lock file says.
-/

namespace Tinymist.BuildScript

/-! ## The shell -/

/-- Where a shell is: between words, in a word, in quotes within a word, or in a comment. -/
inductive Mode
  | between
  | word (w : Text)
  | single (w : Text)
  | double (w : Text)
  | comment
  deriving DecidableEq, Repr

/-- What a shell has read: the commands, and the words of the command it is in. -/
structure State where
  done : List (List Text)
  cmd : List Text
  mode : Mode
  deriving DecidableEq, Repr

/-- The characters that a shell does something with, other than blanks, quotes and line breaks. Texts with them are not read here. -/
def Special (c : Char) : Bool := "\\$`*?[]~;&|<>(){}!^\t\r".toList.contains c

/-- The end of a command: commands without words are none. -/
def ended (done : List (List Text)) (cmd : List Text) : List (List Text) := if cmd = [] then done else done ++ [cmd]

/-- A shell reads a character (POSIX.1-2024, Shell Command Language, 2.2 and 2.3); `none`: it does something else than reading words. -/
def step (s : State) (c : Char) : Option State :=
  match s.mode with
  | .between =>
    if c = ' ' then some s
    else if c = '\n' then some ⟨ended s.done s.cmd, [], .between⟩
    else if c = '#' then some { s with mode := .comment }
    else if c = '\'' then some { s with mode := .single [] }
    else if c = '"' then some { s with mode := .double [] }
    else if Special c then none
    else some { s with mode := .word [c] }
  | .word w =>
    if c = ' ' then some ⟨s.done, s.cmd ++ [w], .between⟩
    else if c = '\n' then some ⟨s.done ++ [s.cmd ++ [w]], [], .between⟩
    else if c = '\'' then some { s with mode := .single w }
    else if c = '"' then some { s with mode := .double w }
    else if Special c then none
    else some { s with mode := .word (w ++ [c]) }
  | .single w => if c = '\'' then some { s with mode := .word w } else some { s with mode := .single (w ++ [c]) }
  | .double w =>
    if c = '"' then some { s with mode := .word w }
    else if c = '$' ∨ c = '`' ∨ c = '\\' ∨ c = '!' then none
    else some { s with mode := .double (w ++ [c]) }
  | .comment => if c = '\n' then some ⟨ended s.done s.cmd, [], .between⟩ else some s

/-- A shell reads a text. -/
def readFrom (s : State) : Text → Option State
  | [] => some s
  | c :: t => (step s c).bind fun s => readFrom s t

/-- The commands of a text, each with its words. -/
def shell (t : Text) : Option (List (List Text)) :=
  match readFrom ⟨[], [], .between⟩ t with
  | some ⟨done, cmd, .between⟩ => some (ended done cmd)
  | some ⟨done, cmd, .comment⟩ => some (ended done cmd)
  | some ⟨done, cmd, .word w⟩ => some (done ++ [cmd ++ [w]])
  | _ => none

/-! ## The arguments -/

/-- The path to a resource, from the directory of the lock file. -/
def place (env : Env) (r : Res) : Text := env.rel r.path

/-- Options with their values. -/
def given (name : String) (vs : List Text) : List Text := vs.flatMap fun v => [name.toList, v]

/-- The pages that a task asks for, as they are written. -/
def pagesOf (t : Task) : List Text :=
  t.transform.flatMap fun
    | .pretty => ["--pretty".toList]
    | .pages rs => given "--pages" (rs.map Pages.showPages)
    | _ => []

/-- A number as it is written. -/
def number (n : Int) : Text := (if n < 0 then ['-'] else []) ++ RustNum.print 10 n.natAbs

/-- The format of a task, and what belongs to it. -/
def formatOf : Kind → List Text
  | .pdf standards timestamp => ["--format=pdf".toList] ++ given "--pdf-standard" (standards.map Standard.text) ++
    given "--creation-timestamp" (timestamp.toList.map number)
  | .png => ["--format=png".toList]
  | .svg => ["--format=svg".toList]
  | .svgHtml => ["--format=svg_html".toList]
  | .md => ["--format=md".toList]
  | .text => ["--format=txt".toList]
  | .html => ["--format=html".toList]
  | .preview => []
  | .query _ => []

/-- The command of a task: the program, and the arguments, as they are, with no quotes. -/
def command (env : Env) (i : Input) (t : Task) : List Text :=
  ["tinymist".toList, "compile".toList, "--save-lock".toList, "--task".toList, t.id, place env i.main] ++
  given "--root" (i.root.toList.map (place env)) ++
  i.inputs.map (fun kv => "--input=".toList ++ kv.1 ++ "=".toList ++ kv.2) ++
  given "--font-path" (i.fontPaths.map (place env)) ++
  (if i.systemFonts then [] else ["--ignore-system-fonts".toList]) ++
  given "--package-path" (i.packagePath.toList.map (place env)) ++
  given "--package-cache-path" (i.packageCachePath.toList.map (place env)) ++
  given "--output" t.output.toList ++
  pagesOf t ++
  formatOf t.kind

/-- The tasks of a lock file that are in the script, with their documents: all but previews. -/
def exported (l : Lock) : List (Input × Task) :=
  l.task.filterMap fun t =>
    if t.kind = .preview then none else (l.document.find? fun i => i.id == t.document).map fun i => (i, t)

/-- The resources of a document. -/
def resources (i : Input) : List Res :=
  [i.main] ++ i.root.toList ++ i.fontPaths ++ i.packagePath.toList ++ i.packageCachePath.toList

/-- All of them are files. -/
def OnDisk (i : Input) : Prop := ∀ r ∈ resources i, r.scheme = "file".toList

/-- The text does not break the line. -/
def OneLine (t : Text) : Prop := '\n' ∉ t

/-- The comment of a task is one line. -/
def NoBreaks (t : Task) : Prop := OneLine t.document ∧ OneLine t.id ∧ ∀ ext, t.kind = .query ext → OneLine ext

/-! ## What is taken -/

/-- An argument that is no option. -/
def Bare (a : Text) : Prop := a.head? ≠ some '-'

/-- A path that is relative to the directory of the lock file, and written as the program writes it. -/
def Settled (env : Env) (r : Res) : Prop :=
  r.scheme = "file".toList ∧ env.rel r.path = r.path ∧ env.user r.path = r.path ∧ Bare r.path ∧ r.path ≠ [] ∧ ':' ∉ r.path

/-- A range of pages from a page on. -/
def Ranged (p : Pages.Pages) : Prop := p.first ≠ none ∧ ∃ s, Pages.parsePages s = some p

/-- A document that the command line can declare. -/
def Declarable (env : Env) (i : Input) : Prop := (∀ r ∈ resources i, Settled env r) ∧ i.inputs = []

/-- A task that the command line can declare. -/
def Expressible (t : Task) : Prop :=
  Bare t.id ∧ t.output = none ∧ (t.kind = .png ∨ t.kind = .svg ∨ ∃ st, t.kind = .pdf st none) ∧
  (t.transform = [] ∨ ∃ rs, rs ≠ [] ∧ (∀ r ∈ rs, Ranged r) ∧ t.transform = [.pages rs])

/-- When a task is done by itself, as it is written. -/
def WhenText (w : When) (v : Text) : Prop :=
  match w with
  | .never => v = "never".toList
  | .onSave => v = "onSave".toList
  | .onType => v = "onType".toList
  | .onDocumentHasTitle => v = "onDocumentHasTitle".toList

end Tinymist.BuildScript
