import Verif.Model.RustNum
/-!
# Page selections and declared export tasks

Models `Pages` (`crates/tinymist-task/src/primitives.rs:171-257`), the page selection of image exports
(`crates/tinymist-task/src/compute.rs:48-130, 300-321`), PDF exports (`compute/pdf.rs:10-56`), the editor's page
selection (`crates/tinymist/src/cmd.rs:727-739`) and the tasks declared on the command line
(`TaskCompileArgs::to_task`, `crates/tinymist-project/src/args.rs:174-246`). Strings are lists of characters.
-/
namespace Tinymist.Pages
open RustNum

/-- `usize::MAX` on 64-bit targets. -/
def usizeMax : Nat := 2 ^ 64 - 1

/-- `char::is_whitespace` (Unicode `White_Space`). -/
def isWhitespace (c : Char) : Bool :=
  let n := c.toNat
  (9 ≤ n && n ≤ 13) || n == 0x20 || n == 0x85 || n == 0xA0 || n == 0x1680 || (0x2000 ≤ n && n ≤ 0x200A) ||
    n == 0x2028 || n == 0x2029 || n == 0x202F || n == 0x205F || n == 0x3000

/-- `str::trim`. -/
def trim (s : List Char) : List Char := ((s.dropWhile isWhitespace).reverse.dropWhile isWhitespace).reverse

/-- `str::split(sep)`: never empty. -/
def split (sep : Char) : List Char → List (List Char)
  | [] => [[]]
  | c :: cs =>
    if c = sep then [] :: split sep cs
    else
      match split sep cs with
      | [] => [[c]]
      | p :: ps => (c :: p) :: ps

/-- `Pages`: an inclusive range with optional ends, primitives.rs:176-182. Page numbers are not zero. -/
structure Pages where
  first : Option Nat
  last : Option Nat
  deriving DecidableEq, Repr

/-- `Pages::FIRST`, primitives.rs:181. -/
def Pages.FIRST : Pages := ⟨some 1, none⟩

/-- `parse_page_number`, primitives.rs:251-257: `NonZeroUsize::from_str` is `usize::from_str` without zero. -/
def parsePageNumber (s : List Char) : Option Nat :=
  if s = ['0'] then none
  else
    match parse 10 usizeMax s with
    | some 0 => none
    | r => r

/-- `Pages::from_str`, primitives.rs:184-215: `none` for each of the errors. -/
def parsePages (s : List Char) : Option Pages :=
  match (split '-' s).map trim with
  | [] => none
  | [[]] => none
  | [p] => (parsePageNumber p).map fun n => ⟨some n, some n⟩
  | [[], []] => none
  | [a, []] => (parsePageNumber a).map fun n => ⟨some n, none⟩
  | [[], b] => (parsePageNumber b).map fun n => ⟨none, some n⟩
  | [a, b] => do
    let a ← parsePageNumber a
    let b ← parsePageNumber b
    if a > b then none else some ⟨some a, some b⟩
  | _ :: _ :: _ :: _ => none

/-- Half of `Pages::fmt`. -/
def showBound : Option Nat → List Char
  | some n => print 10 n
  | none => []

/-- `Pages::fmt`, primitives.rs:217-229. -/
def showPages (p : Pages) : List Char := showBound p.first ++ '-' :: showBound p.last

/-! ## Exports -/

/-- `ExportTransform`, model.rs:187-218; scripts are not looked at. -/
inductive Transform where
  | pages (ranges : List Pages)
  | merge (gap : Option (List Char))
  | script
  | pretty

/-- `is_first` of `get_page_selection`, compute.rs:300-304. -/
def isFirst (ts : List Transform) : Bool :=
  ts.any fun
    | .pages ranges => ranges == [Pages.FIRST]
    | _ => false

/-- The pages, numbered from one, that SVG and PNG exports of a document with `n` pages show, compute.rs:56-72,
105-117. (The gap between merged pages is not modelled.) -/
def imagePages (ts : List Transform) (n : Nat) : List Nat :=
  if isFirst ts then (if n = 0 then [] else [1]) else List.range' 1 n

/-- The pages of a PDF export, pdf.rs:14-56: the task's transforms are not consulted. -/
def pdfPages (_ts : List Transform) (n : Nat) : List Nat := List.range' 1 n

/-- `PageSelection`, model.rs:171-183. -/
inductive PageSelection where
  | first
  | merged (gap : Option (List Char))

/-- `select_page`, cmd.rs:727-739. -/
def selectPage (ts : List Transform) : PageSelection → List Transform
  | .first => ts ++ [.pages [Pages.FIRST]]
  | .merged gap => ts ++ [.merge gap]

/-! ## Tasks declared on the command line -/

/-- `OutputFormat`. -/
inductive Format where
  | pdf | png | svg | html
  deriving DecidableEq, Repr

/-- Which variant of `ProjectTask` (model.rs:59-80) a task is. -/
inductive TaskKind where
  | exportPdf | exportPng | exportSvg | exportHtml
  deriving DecidableEq, Repr

/-- The parts of `TaskCompileArgs` looked at here, args.rs:117-171. -/
structure CompileArgs where
  taskName : Option (List Char)
  output : Option (List Char)
  format : Option Format
  pages : Option (List Pages)

structure Task where
  id : List Char
  document : List Char
  kind : TaskKind
  output : Option (List Char)
  transform : List Transform

/-- The extension of a path's last component, `Path::extension` (std): what follows the last dot, unless the dot is
the first character. The path is taken to have one component. -/
def extension (name : List Char) : Option (List Char) :=
  let r := name.reverse
  if name = ['.', '.'] then none
  else if '.' ∈ name ∧ (r.dropWhile (· ≠ '.')).length > 1 then some ((r.takeWhile (· ≠ '.')).reverse) else none

/-- `eq_ignore_ascii_case`. -/
def eqIgnoreCase (a b : List Char) : Bool := a.map Char.toLower == b.map Char.toLower

/-- args.rs:179-198: `none` when the format cannot be inferred. -/
def outputFormat (a : CompileArgs) : Option Format :=
  match a.format with
  | some f => some f
  | none =>
    match a.output with
    | none => some .pdf
    | some o =>
      match extension o with
      | none => none
      | some e =>
        if eqIgnoreCase e "pdf".toList then some .pdf
        else if eqIgnoreCase e "png".toList then some .png
        else if eqIgnoreCase e "svg".toList then some .svg
        else if eqIgnoreCase e "html".toList then some .html
        else none

/-- args.rs:217-233. -/
def taskKind : Format → TaskKind
  | .pdf => .exportPdf
  | .png => .exportPng
  | .svg => .exportSvg
  | .html => .exportSvg

/-- `TaskCompileArgs::to_task`, args.rs:174-246. -/
def toTask (a : CompileArgs) (docId : List Char) : Option Task := do
  let f ← outputFormat a
  let transform := match a.pages with
    | some ps => [Transform.pages ps]
    | none => []
  pure ⟨a.taskName.getD docId, docId, taskKind f, none, transform⟩

end Tinymist.Pages
