import Verif.Model.Scan
import Verif.Spec.Pages

/-!
# What the files of a workspace, kinds of files and types of parameters should be
-/

namespace Tinymist.Scan

/-! ## Kinds of files -/

/-- The extensions of a kind of file, in small letters. -/
def extensionsOf : Kind → List String
  | .source => ["typ", "typc"]
  | .wasm => ["wasm"]
  | .csv => ["csv"]
  | .image => ["bmp", "gif", "ico", "jfif", "jpeg", "jpg", "png", "svg", "svgz", "tiff", "webp"]
  | .json => ["json", "json5", "jsonc"]
  | .yaml => ["yaml", "yml"]
  | .xml => ["xml"]
  | .toml => ["toml"]
  | .csl => ["csl"]
  | .bibliography => ["bib", "yaml", "yml"]
  | .rawTheme => ["tmtheme", "xml"]
  | .rawSyntax => ["sublime-syntax", "tmlanguage"]
  | .special => []
  | .any => []

/-- The kinds with extensions of their own. -/
def Kind.Concrete (k : Kind) : Prop := k ≠ .special ∧ k ≠ .any

/-- The small form of a letter. Unicode has another form of `s`, U+017F, and of `K`, U+212A. -/
def small (c : Char) : Char := if c = Char.ofNat 0x17F then 's' else if c = Char.ofNat 0x212A then 'k' else c.toLower

/-- The extension `e` is one of the kind, in whatever case its letters are. -/
def Named (k : Kind) (e : Text) : Prop := ∃ s ∈ extensionsOf k, e.map small = s.toList

/-- Text of ASCII characters. -/
def Ascii (e : Text) : Prop := ∀ c ∈ e, c.toNat < 128

/-- The file's name has the extension `e`. -/
def HasExt (name e : Text) : Prop := name ≠ ['.', '.'] ∧ Pages.Extension name e

/-! ## The files of a workspace -/

/-- A name that is neither hidden nor that of a folder for generated files. -/
def Kept (name : Text) : Prop :=
  name.head? ≠ some '.' ∧ name ∉ ["build", "target", "node_modules", "out", "dist"].map String.toList

/-- `path` leads to a file of a name that is wanted, and neither it nor a folder on the way is hidden or generated. -/
inductive Listed (want : Text → Prop) : List Node → List Text → Prop where
  | file {ns name} : .file name ∈ ns → Kept name → want name → Listed want ns [name]
  | dir {ns name cs path} : .dir name cs ∈ ns → Kept name → Listed want cs path → Listed want ns (name :: path)

/-- The name of a thing. -/
def Node.name? : Node → Option Text
  | .file n | .other n | .dir n _ => some n
  | .broken => none

/-- In a folder, and in all the folders in it, no two things have the same name. -/
inductive Proper : List Node → Prop where
  | nil : Proper []
  | cons {n ns} : (∀ x, n.name? = some x → ∀ m ∈ ns, m.name? ≠ some x) → (∀ x cs, n = .dir x cs → Proper cs) → Proper ns →
      Proper (n :: ns)

/-! ## Types -/

/-- The cast `l`, which is no union, is one of the alternatives of a cast. -/
inductive Alternative : Cast → Cast → Prop where
  | any : Alternative .any .any
  | value (v) : Alternative (.value v) (.value v)
  | type (t) : Alternative (.type t) (.type t)
  | union {l c cs} : c ∈ cs → Alternative l c → Alternative l (.union cs)

mutual
/-- The casts that are no unions in a cast, in order. -/
def leaves : Cast → List Cast
  | .union cs => leavesOf cs
  | .any => [.any]
  | .value v => [.value v]
  | .type t => [.type t]
/-- The casts that are no unions in casts, in order. -/
def leavesOf : List Cast → List Cast
  | [] => []
  | c :: cs => leaves c ++ leavesOf cs
end

/-- The type of a cast that is no union. -/
def Stands : Cast → Ty → Prop
  | .any, t => t = .any
  | .value v, t => t = .value v
  | .type x, t => t = .type x
  | .union _, _ => False

/-- The function with arguments given `n` times. -/
def givenTimes (f : Fn) : Nat → Fn
  | 0 => f
  | n + 1 => .given (givenTimes f n)

/-- The functions of the compiler that read a file, the parameter that names it, and the kind of the file. -/
def loaders : List (String × String × Kind) :=
  [("embed", "path", .any), ("cbor", "path", .any), ("cbor", "source", .any), ("read", "path", .any), ("read", "source", .any),
   ("plugin", "source", .wasm), ("csv", "path", .csv), ("csv", "source", .csv), ("image", "path", .image), ("image", "source", .image),
   ("json", "path", .json), ("json", "source", .json), ("yaml", "path", .yaml), ("yaml", "source", .yaml), ("xml", "path", .xml),
   ("xml", "source", .xml), ("toml", "path", .toml), ("toml", "source", .toml), ("raw", "theme", .rawTheme), ("raw", "syntaxes", .rawSyntax)]

/-- What a parameter takes: just one type, or one of several, where `own` is what the parameter itself says it takes. -/
inductive Takes where
  | just (t : Ty)
  | oneOf (own : Bool) (ts : List Ty)

/-- The type is what the parameter takes. -/
def Takes.Fits (own : Ty) : Takes → Ty → Prop
  | .just u, t => t = u
  | .oneOf true us, t => ∃ ts, t = .union ts ∧ ts.Perm (own :: us)
  | .oneOf false us, t => ∃ ts, t = .union ts ∧ ts.Perm us

/-- The functions and parameters, besides those of files, that take something else than what the parameter says, and what. The types that are
numbered: a point (0), sizes of text (1), fonts (2), features of fonts (3), costs (4), languages (5), regions (6), directions (7), indents (8),
insets (9), outsets (10), radii (11), dashes (12), strokes (13), margins (14); strings (`other 0`), locations (`other 1`), dictionaries
(`other 2`); `auto` (value 0) and the type of integers (value 1). -/
def takes : List (List String × List String × Takes) :=
  [(["bibliography", "cite"], ["style"], .oneOf true [.path .csl]),
   (["bibliography"], ["path", "sources"], .oneOf false [.path .bibliography, .array (.path .bibliography)]),
   (["cite"], ["key"], .oneOf false [.citeLabel]),
   (["ref"], ["target"], .oneOf false [.refLabel]),
   (["footnote"], ["body"], .oneOf true [.refLabel]),
   (["link"], ["dest"], .oneOf false [.refLabel, .type (.other 0), .type (.other 1), .made 0]),
   (["text"], ["size"], .just (.made 1)),
   (["text"], ["font"], .oneOf false [.made 2, .array (.made 2)]),
   (["text"], ["feature"], .oneOf false [.type (.other 2), .array (.made 3)]),
   (["text"], ["costs"], .just (.made 4)),
   (["text"], ["lang"], .just (.made 5)),
   (["text"], ["region"], .just (.made 6)),
   (["text", "stack"], ["dir"], .just (.made 7)),
   (["par"], ["first-line-indent"], .oneOf false [.length, .made 8]),
   (["block", "box", "circle", "curve", "ellipse", "highlight", "page", "path", "polygon", "rect", "regular", "table", "text"], ["fill"],
    .just .color),
   (["block", "box", "cell", "circle", "ellipse", "rect", "square", "table"], ["inset"], .just (.made 9)),
   (["block", "box", "circle", "ellipse", "rect", "square"], ["outset"], .just (.made 10)),
   (["block", "box", "highlight", "rect", "square"], ["radius"], .just (.made 11)),
   (["stroke"], ["dash"], .just (.made 12)),
   (["block", "box", "cancel", "cell", "circle", "curve", "ellipse", "highlight", "hline", "line", "overline", "path", "polygon", "rect",
     "regular", "strike", "table", "text", "underline", "vline"], ["stroke"], .just (.made 13)),
   (["page"], ["margin"], .just (.made 14)),
   (["pattern", "tiling"], ["size"], .oneOf false [.value 0, .array .length]),
   (["grid", "table"], ["column-gutter", "columns", "gutter", "row-gutter", "rows"], .oneOf false [.value 0, .value 1, .length, .array .length])]

end Tinymist.Scan
