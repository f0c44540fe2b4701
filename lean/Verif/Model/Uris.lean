/-!
# URIs of documents

Models the conversions between the paths of the server and the URIs of the editor
(crates/tinymist-query/src/lsp_typst_boundary.rs). Texts are lists of bytes. A path is absolute and given by its components, as
paths are compared by them; this is for Unix. The functions of the library for URLs that are used are modelled after its
documentation: `from_file_path`, `to_file_path` and the parser for URLs of a scheme it does not know. A text that is not UTF-8
is left as it is.
-/

namespace Tinymist.Uris

abbrev Bytes := List Nat
abbrev Path := List Bytes

inductive Scheme where
  | file | untitled | other
  deriving DecidableEq, Repr

/-- The path of a URL: segments behind slashes, or, if it does not begin with a slash, any text. -/
inductive UPath where
  | segs (ss : List Bytes)
  | opaque (t : Bytes)
  deriving DecidableEq, Repr

/-- A URL; `tail` is what begins with a question mark or a hash. -/
structure Url where
  scheme : Scheme
  host : Bool
  path : UPath
  tail : Bytes
  deriving DecidableEq, Repr

/-! ## The library -/

def hexDigit (n : Nat) : Nat := if n < 10 then 48 + n else 55 + n

def hexVal (c : Nat) : Option Nat :=
  if 48 ≤ c ∧ c ≤ 57 then some (c - 48)
  else if 65 ≤ c ∧ c ≤ 70 then some (c - 55)
  else if 97 ≤ c ∧ c ≤ 102 then some (c - 87)
  else none

/-- `percent_encode`, of the bytes in `S`. -/
def encode (S : Nat → Bool) : Bytes → Bytes
  | [] => []
  | b :: bs => if S b then 37 :: hexDigit (b / 16) :: hexDigit (b % 16) :: encode S bs else b :: encode S bs

/-- `percent_decode`. -/
def decode : Bytes → Bytes
  | 37 :: a :: b :: rest =>
    match hexVal a, hexVal b with
    | some x, some y => (16 * x + y) :: decode rest
    | _, _ => 37 :: decode (a :: b :: rest)
  | c :: rest => c :: decode rest
  | [] => []

/-- `CONTROLS`, and all that is not ASCII. -/
def controls (b : Nat) : Bool := b < 32 || b == 127 || 128 ≤ b

/-- `SPECIAL_PATH_SEGMENT`: space, `"`, `<`, `>`, a backquote, `#`, `?`, `{`, `}`, `/`, `%` and the backslash. -/
def segmentSet (b : Nat) : Bool := controls b || [32, 34, 60, 62, 96, 35, 63, 123, 125, 47, 37, 92].contains b

/-- Splits at slashes. -/
def splitSlash : Bytes → List Bytes
  | [] => [[]]
  | c :: cs =>
    if c = 47 then [] :: splitSlash cs
    else
      match splitSlash cs with
      | [] => [[c]]
      | s :: ss => (c :: s) :: ss

/-- The components of a path that is made of texts behind slashes: none for empty ones and for a dot. -/
def components (texts : List Bytes) : Path := (texts.flatMap splitSlash).filter fun s => s != [] && s != [46]

/-- `Url::from_file_path`. -/
def fromFilePath (p : Path) : Url := ⟨.file, false, .segs (if p = [] then [[]] else p.map (encode segmentSet)), []⟩

/-- `Url::to_file_path`; it does not look at the scheme. -/
def toFilePath (u : Url) : Option Path :=
  match u.path with
  | .opaque _ => none
  | .segs ss => if u.host then none else some (components (ss.map decode))

/-- Up to the last byte that is not a space or a control character. -/
def trimEnd (t : Bytes) : Bytes := (t.reverse.dropWhile (· ≤ 32)).reverse

/-- `Url::parse` of `untitled:` with a text that does not begin with a slash. -/
def parseUntitled (t : Bytes) : Url :=
  let t := (trimEnd t).filter fun b => b != 9 && b != 10 && b != 13
  ⟨.untitled, false, .opaque (encode controls (t.takeWhile fun b => b != 63 && b != 35)), t.dropWhile fun b => b != 63 && b != 35⟩

/-! ## The conversions -/

/-- `untitled` -/
def untitledName : Bytes := [117, 110, 116, 105, 116, 108, 101, 100]
/-- `nEoViM-BuG` -/
def neovimName : Bytes := [110, 69, 111, 86, 105, 77, 45, 66, 117, 71]

/-- Components with slashes between them. -/
def slashed : Path → Bytes
  | [] => []
  | [n] => n
  | n :: m :: rest => n ++ 47 :: slashed (m :: rest)

/-- `path_to_url` (lsp_typst_boundary.rs:24-40). -/
def pathToUrl (p : Path) : Url :=
  match p with
  | u :: rest =>
    if u = untitledName then
      if rest = [neovimName] then ⟨.file, false, .segs [[]], []⟩ else parseUntitled (slashed rest)
    else fromFilePath p
  | [] => fromFilePath []

/-- `clean` of an absolute path: `..` goes back. -/
def clean (p : Path) : Path :=
  p.foldl (fun acc s => if s = [46, 46] then acc.dropLast else acc ++ [s]) []

/-- `url_to_path` (lsp_typst_boundary.rs:51-77); `none`: it panics. -/
def urlToPath (u : Url) : Option Path :=
  match u.scheme with
  | .file => if u.host = false ∧ u.path = .segs [[]] then some [untitledName, neovimName] else toFilePath u
  | .untitled =>
    let segs := match u.path with
      | .segs ss => ss
      | .opaque t => splitSlash t
    some (clean (components (untitledName :: segs.map decode)))
  | .other => toFilePath u

end Tinymist.Uris
