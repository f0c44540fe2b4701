import Verif.Model.Pages

/-!
# The files of a workspace, kinds of files and types of parameters

Models `scan_workspace_files` of `crates/tinymist-query/src/syntax/module.rs`, the lists of files of
`crates/tinymist-query/src/analysis/global.rs`, and from `crates/tinymist-analysis/src/ty/builtin.rs` the kinds of files, the types of
parameters and the types of values.

Left out: names that are no Unicode, and the ids that are made from paths (`Workspace`). The walk of the crate `walkdir` is modelled from
its documentation: a folder comes before what is in it, `skip_current_dir` leaves the folder that came last, links are not followed
except at the start.
-/

namespace Tinymist.Scan

abbrev Text := List Char

/-! ## Kinds of files -/

/-- `PathPreference` (builtin.rs 19-35); `allow_package` is not looked at here. -/
inductive Kind where
  | source | wasm | csv | image | json | yaml | xml | toml | csl | bibliography | rawTheme | rawSyntax | special | any
  deriving DecidableEq, Repr

/-- A character of a pattern with `(?i)`: letters match in both cases, `s` also as `ſ` and `k` as the sign for Kelvin (builtin.rs 41-44;
the crate `regex` folds cases by Unicode). -/
def foldEq (p c : Char) : Bool :=
  p.toLower == c.toLower || (p.toLower == 's' && c == Char.ofNat 0x17F) || (p.toLower == 'k' && c == Char.ofNat 0x212A)

/-- `(?i)^pattern$` (builtin.rs 41-44), for a pattern of plain characters. -/
def patternMatch : Text → Text → Bool
  | [], [] => true
  | p :: ps, c :: cs => foldEq p c && patternMatch ps cs
  | _, _ => false

/-- The patterns of one kind (builtin.rs 46-62, 84-97). -/
def patterns : Kind → List String
  | .source => ["typ", "typc"]
  | .wasm => ["wasm"]
  | .image => ["ico", "bmp", "png", "webp", "jpg", "jpeg", "jfif", "tiff", "gif", "svg", "svgz"]
  | .json => ["json", "jsonc", "json5"]
  | .yaml => ["yaml", "yml"]
  | .xml => ["xml"]
  | .toml => ["toml"]
  | .csv => ["csv"]
  | .bibliography => ["yaml", "yml", "bib"]
  | .csl => ["csl"]
  | .rawTheme => ["tmTheme", "xml"]
  | .rawSyntax => ["tmLanguage", "sublime-syntax"]
  | .special => []
  | .any => []

/-- The kinds `ALL_SPECIAL_REGSET` is made of (builtin.rs 65-81). -/
def specialKinds : List Kind :=
  [.source, .wasm, .image, .json, .yaml, .xml, .toml, .csv, .bibliography, .csl, .rawTheme, .rawSyntax]

/-- `RegexSet::is_match` of `ext_matcher` (builtin.rs 38-99): `.*` is in every text. -/
def extMatch (k : Kind) (e : Text) : Bool :=
  match k with
  | .any => true
  | .special => (specialKinds.flatMap patterns).any fun p => patternMatch p.toList e
  | k => (patterns k).any fun p => patternMatch p.toList e

/-- `PathPreference::is_match` (builtin.rs 101-104), for the last component of a path. -/
def isMatch (k : Kind) (name : Text) : Bool :=
  match Pages.extension name with
  | some e => extMatch k e
  | none => false

/-- The order of `PathPreference::iter` (builtin.rs 19-35). -/
def allKinds : List Kind :=
  [.source, .wasm, .csv, .image, .json, .yaml, .xml, .toml, .csl, .bibliography, .rawTheme, .rawSyntax, .special, .any]

/-- `PathPreference::from_ext` (builtin.rs 106-108), which the hover on a link shows (hover.rs 252-254). -/
def fromExt (name : Text) : Option Kind := allKinds.find? fun k => isMatch k name

/-! ## The files of a workspace -/

/-- What is in a folder: files, links and other things that are neither files nor folders, entries that cannot be read, folders. -/
inductive Node where
  | file (name : Text)
  | other (name : Text)
  | broken
  | dir (name : Text) (children : List Node)

/-- `is_hidden` (module.rs 65-71). -/
def isHidden (name : Text) : Bool :=
  match name with
  | '.' :: _ => true
  | _ => false

/-- `IGNORE_REGEX` (module.rs 97-106). -/
def isIgnored (name : Text) : Bool :=
  ["build", "target", "node_modules", "out", "dist"].any fun s => s.toList == name

mutual
/-- What is left of the walk of a thing. -/
def Node.size : Node → Nat
  | .dir _ cs => 2 + sizes cs
  | _ => 1
/-- What is left of the walk of a list of things. -/
def sizes : List Node → Nat
  | [] => 0
  | n :: ns => n.size + sizes ns
end

/-- What is left of the walk of the open folders. -/
def stackSize : List (List Text × List Node) → Nat
  | [] => 0
  | (_, ns) :: rest => 1 + sizes ns + stackSize rest

/-- The loop of `scan_workspace_files` (module.rs 82-146) with the open folders, the innermost in front: for each the path below the
workspace and what is left of it. `limit` files at most are found. -/
def scanLoop (ext : Text → Bool) (limit : Nat) (found : List (List Text)) :
    List (List Text × List Node) → List (List Text)
  | [] => found
  | (_, []) :: rest => scanLoop ext limit found rest
  | (p, .broken :: ns) :: rest => scanLoop ext limit found ((p, ns) :: rest)
  | (p, .other _ :: ns) :: rest => scanLoop ext limit found ((p, ns) :: rest)
  | (p, .dir name cs :: ns) :: rest =>
    if isHidden name then scanLoop ext limit found ((p, ns) :: rest)
    else if isIgnored name then scanLoop ext limit found ((p, ns) :: rest)
    else scanLoop ext limit found ((p ++ [name], cs) :: (p, ns) :: rest)
  | (p, .file name :: ns) :: rest =>
    if isHidden name then scanLoop ext limit found ((p, ns) :: rest)
    else if isIgnored name then scanLoop ext limit found ((p, ns) :: rest)
    else if (match Pages.extension name with | some e => ext e | none => false) then
      if (found ++ [p ++ [name]]).length ≥ limit then found ++ [p ++ [name]]
      else scanLoop ext limit (found ++ [p ++ [name]]) ((p, ns) :: rest)
    else scanLoop ext limit found ((p, ns) :: rest)
termination_by stack => stackSize stack
decreasing_by
  all_goals simp only [stackSize, sizes, Node.size]
  all_goals omega

/-- The folder a workspace is in: its name, whether the path is a link to a folder, what is in it. -/
structure Root where
  name : Text
  isLink : Bool
  children : List Node

/-- `scan_workspace_files` (module.rs 76-149) from the start: the folder itself is the first entry of the walk. It is left if it is
hidden or has an ignored name, unless it is a link: then it is no folder to `file_type`, but the walk goes on in it. -/
def scan (ext : Text → Bool) (r : Root) : List (List Text) :=
  if isHidden r.name || isIgnored r.name then
    if r.isLink then scanLoop ext 65535 [] [([], r.children)] else []
  else scanLoop ext 65535 [] [([], r.children)]

/-- `completion_files` (global.rs 332-357): `none` is a workspace without a folder. -/
def completionFiles (r : Option Root) (k : Kind) : List (List Text) :=
  (match r with
    | some r => scan (extMatch .special) r
    | none => []).filter fun p =>
      match p.getLast? with
      | some name =>
        match Pages.extension name with
        | some e => extMatch k e
        | none => false
      | none => false

/-- `source_files` (global.rs 359-367). -/
def sourceFiles (r : Option Root) : List (List Text) := completionFiles r .source

/-! ## Types of parameters and values -/

/-- Types of the compiler: those with a case of their own in `from_builtin` (builtin.rs 321-345) and others. -/
inductive TypeName where
  | auto | none | color | bool | float | length | content | other (n : Nat)
  deriving DecidableEq, Repr

/-- `CastInfo` of the compiler. -/
inductive Cast where
  | any
  | value (v : Nat)
  | type (t : TypeName)
  | union (cs : List Cast)

/-- The types that are made here (`ty/def.rs` and builtin.rs 211-254). -/
inductive Ty where
  | any
  | value (v : Nat)
  | boolean (v : Option Bool)
  | auto | none | color | float | length | content
  | type (t : TypeName)
  | path (k : Kind)
  | citeLabel | refLabel
  | array (t : Ty)
  | union (ts : List Ty)
  /-- Other types that are made for one parameter alone. -/
  | made (n : Nat)

mutual
/-- What is left of the walk of a cast. -/
def Cast.size : Cast → Nat
  | .union cs => 2 + castSizes cs
  | _ => 1
/-- What is left of the walk of casts. -/
def castSizes : List Cast → Nat
  | [] => 0
  | c :: cs => c.size + castSizes cs
end

/-- What is left of the walk of the open unions. -/
def castStackSize : List (List Cast) → Nat
  | [] => 0
  | cs :: rest => 1 + castSizes cs + castStackSize rest

/-- All that `UnionIter` yields (builtin.rs 152-172), the innermost open union in front. -/
def unionIter : List (List Cast) → List Cast
  | [] => []
  | [] :: rest => unionIter rest
  | (.union ts :: cs) :: rest => unionIter (ts :: cs :: rest)
  | (.any :: cs) :: rest => .any :: unionIter (cs :: rest)
  | (.value v :: cs) :: rest => .value v :: unionIter (cs :: rest)
  | (.type t :: cs) :: rest => .type t :: unionIter (cs :: rest)
termination_by stack => castStackSize stack
decreasing_by
  all_goals simp only [castStackSize, castSizes, Cast.size]
  all_goals omega

/-- `from_cast_info` of what is no union (builtin.rs 112-116). -/
def leafTy : Cast → Ty
  | .any => .any
  | .value v => .value v
  | .type t => .type t
  | .union _ => .any

/-- `Ty::iter_union` (def.rs 164-169): sorted by the order of types, `le`. -/
def iterUnion (le : Ty → Ty → Bool) (ts : List Ty) : Ty := .union (ts.mergeSort le)

/-- `Ty::from_cast_info` (builtin.rs 111-121): what `UnionIter` yields is no union. -/
def fromCast (le : Ty → Ty → Bool) : Cast → Ty
  | .any => .any
  | .value v => .value v
  | .type t => .type t
  | .union cs => iterUnion le ((unionIter [cs]).map leafTy)

/-- Functions (`func::Repr` of the compiler): those of the compiler and of plugins, closures, and functions with arguments given. -/
inductive Fn where
  | native (name : String)
  | closure
  | given (f : Fn)

/-- `param_mapping` (builtin.rs 479-598). The types besides those of files and labels are numbered. -/
def paramMapping (le : Ty → Ty → Bool) (f p : String) (input : Cast) : Option Ty :=
  match f, p with
  | "embed", "path" => some (.path .any)
  | "cbor", "path" | "cbor", "source" => some (.path .any)
  | "plugin", "source" => some (.path .wasm)
  | "csv", "path" | "csv", "source" => some (.path .csv)
  | "image", "path" | "image", "source" => some (.path .image)
  | "read", "path" | "read", "source" => some (.path .any)
  | "json", "path" | "json", "source" => some (.path .json)
  | "yaml", "path" | "yaml", "source" => some (.path .yaml)
  | "xml", "path" | "xml", "source" => some (.path .xml)
  | "toml", "path" | "toml", "source" => some (.path .toml)
  | "raw", "theme" => some (.path .rawTheme)
  | "raw", "syntaxes" => some (.path .rawSyntax)
  | "bibliography", "style" | "cite", "style" => some (iterUnion le [.path .csl, fromCast le input])
  | "cite", "key" => some (iterUnion le [.citeLabel])
  | "ref", "target" => some (iterUnion le [.refLabel])
  | "footnote", "body" => some (iterUnion le [.refLabel, fromCast le input])
  | "link", "dest" => some (iterUnion le [.refLabel, .type (.other 0), .type (.other 1), .made 0])
  | "bibliography", "path" | "bibliography", "sources" =>
    some (iterUnion le [.path .bibliography, .array (.path .bibliography)])
  | "text", "size" => some (.made 1)
  | "text", "font" => some (iterUnion le [.made 2, .array (.made 2)])
  | "text", "feature" => some (iterUnion le [.type (.other 2), .array (.made 3)])
  | "text", "costs" => some (.made 4)
  | "text", "lang" => some (.made 5)
  | "text", "region" => some (.made 6)
  | "text", "dir" | "stack", "dir" => some (.made 7)
  | "par", "first-line-indent" => some (iterUnion le [.length, .made 8])
  | f, "fill" =>
    if f ∈ ["page", "highlight", "text", "path", "curve", "rect", "ellipse", "circle", "polygon", "box", "block", "table", "regular"]
    then some .color else none
  | f, "inset" =>
    if f ∈ ["table", "cell", "block", "box", "circle", "ellipse", "rect", "square"] then some (.made 9) else none
  | f, "outset" => if f ∈ ["block", "box", "circle", "ellipse", "rect", "square"] then some (.made 10) else none
  | f, "radius" => if f ∈ ["block", "box", "rect", "square", "highlight"] then some (.made 11) else none
  | "stroke", "dash" => some (.made 12)
  | f, "stroke" =>
    if f ∈ ["cancel", "highlight", "overline", "strike", "underline", "text", "path", "curve", "rect", "ellipse", "circle", "polygon", "box",
      "block", "table", "line", "cell", "hline", "vline", "regular"] then some (.made 13) else none
  | "page", "margin" => some (.made 14)
  | "pattern", "size" | "tiling", "size" => some (iterUnion le [.value 0, .array .length])
  | f, p =>
    if f ∈ ["grid", "table"] ∧ p ∈ ["columns", "rows", "gutter", "column-gutter", "row-gutter"] then
      some (iterUnion le [.value 0, .value 1, .length, .array .length])
    else none

/-- `Ty::from_param_site` (builtin.rs 123-136). -/
def fromParamSite (le : Ty → Ty → Bool) (p : String) (input : Cast) : Fn → Ty
  | .native name => (paramMapping le name p input).getD (fromCast le input)
  | .closure => fromCast le input
  | .given f => fromParamSite le p input f

/-- Values of the compiler: truth values, and others by their type. -/
inductive Value where
  | bool (b : Bool)
  | of (t : TypeName) (h : t ≠ .bool)

/-- `Value::ty`. -/
def Value.ty : Value → TypeName
  | .bool _ => .bool
  | .of t _ => t

/-- `BuiltinTy::from_builtin` (builtin.rs 321-345). -/
def fromBuiltin (t : TypeName) : Ty :=
  if t = .auto then .auto
  else if t = .none then .none
  else if t = .color then .color
  else if t = .bool then .none
  else if t = .float then .float
  else if t = .length then .length
  else if t = .content then .content
  else .type t

/-- `BuiltinTy::from_value` (builtin.rs 313-319). -/
def fromValue (v : Value) : Ty :=
  match v with
  | .bool b => .boolean (some b)
  | v => fromBuiltin v.ty

end Tinymist.Scan
