/-!
# Positions and text synchronisation

Models `crates/tinymist-analysis/src/location.rs` and `edit_source` (`crates/tinymist/src/input.rs:51-82`).

Texts are lists of characters, offsets are byte offsets. The methods of `typst::syntax::Source` (typst 0.13.1) that
are called here belong to a dependency; they are modelled by their documented behaviour, in the section below: a
table of line starts found by scanning for newlines, searched by binary search. Texts are assumed shorter than
2^32 (the casts to `u32`).
-/
namespace Tinymist.Position

abbrev Text := List Char

/-- `char::len_utf16`. -/
def u16 (c : Char) : Nat := if c.val < 0x10000 then 1 else 2

def len8 (s : Text) : Nat := (s.map Char.utf8Size).sum
def len16 (s : Text) : Nat := (s.map u16).sum

/-! ## `typst::syntax::Source` -/

/-- `typst_syntax::is_newline`. -/
def isNewline (c : Char) : Bool :=
  c = '\n' || c = '\x0B' || c = '\x0C' || c = '\r' || c = '\u0085' || c = '\u2028' || c = '\u2029'

/-- Puts a character in front of the first line. -/
def consLine (c : Char) : List Text → List Text
  | [] => [[c]]
  | l :: ls => (c :: l) :: ls

/-- The lines of a text, each with its newline. -/
def lines : Text → List Text
  | [] => [[]]
  | '\r' :: '\n' :: cs => ['\r', '\n'] :: lines cs
  | c :: cs => if isNewline c then [c] :: lines cs else consLine c (lines cs)

/-- Byte offset and UTF-16 offset of the start of line `i`: `line_to_byte`. -/
def lineToByte (ls : List Text) (i : Nat) : Option Nat :=
  if i < ls.length then some (len8 (ls.take i).flatten) else none

/-- The line that holds an offset, for line lengths measured by `len`: the last line that starts at or before it
(`binary_search_by_key`). -/
def lineOf (len : Text → Nat) : List Text → Nat → Nat
  | [], _ => 0
  | [_], _ => 0
  | l :: ls, b => if b < len l then 0 else lineOf len ls (b - len l) + 1

/-- `byte_to_line`. -/
def byteToLine (ls : List Text) (b : Nat) : Option Nat :=
  if b ≤ len8 ls.flatten then some (lineOf len8 ls b) else none

/-- `text.get(..b)` and the rest: `none` if `b` is not on a character boundary. -/
def splitAtByte : Text → Nat → Option (Text × Text)
  | s, 0 => some ([], s)
  | [], _ + 1 => none
  | c :: cs, b + 1 =>
    if b + 1 < c.utf8Size then none else (splitAtByte cs (b + 1 - c.utf8Size)).map fun r => (c :: r.1, r.2)

/-- `text.get(start..b)` for the start of the line of `b`. -/
def lineHead (ls : List Text) (b : Nat) : Option Text := do
  let i ← byteToLine ls b
  let start ← lineToByte ls i
  let r ← splitAtByte (ls.drop i).flatten (b - start)
  pure r.1

/-- `byte_to_column`: counts characters. -/
def byteToColumn (ls : List Text) (b : Nat) : Option Nat := (lineHead ls b).map List.length

/-- `byte_to_utf16`. -/
def byteToUtf16 (ls : List Text) (b : Nat) : Option Nat := do
  let i ← byteToLine ls b
  let h ← lineHead ls b
  pure (len16 (ls.take i).flatten + len16 h)

/-- The loop of `utf16_to_byte`: from byte `b` and UTF-16 offset `k`. -/
def walk (u : Nat) : Text → Nat → Nat → Option Nat
  | [], b, k => if k = u then some b else none
  | c :: cs, b, k => if k ≥ u then some b else walk u cs (b + c.utf8Size) (k + u16 c)

/-- `utf16_to_byte`. -/
def utf16ToByte (ls : List Text) (u : Nat) : Option Nat :=
  let i := lineOf len16 ls u
  walk u (ls.drop i).flatten (len8 (ls.take i).flatten) (len16 (ls.take i).flatten)

/-- `line_column_to_byte`: skips as many characters of the line, at most all. -/
def lineColumnToByte (ls : List Text) (i col : Nat) : Option Nat :=
  ls[i]?.map fun l => len8 (ls.take i).flatten + len8 (l.take col)

/-- `Source::edit`, `String::replace_range`: panics unless the range is ordered, within the text and on character
boundaries. -/
def replaceRange (s : Text) (start stop : Nat) (w : Text) : Option Text :=
  if start ≤ stop then do
    let r ← splitAtByte s start
    let r' ← splitAtByte r.2 (stop - start)
    pure (r.1 ++ w ++ r'.2)
  else none

/-! ## location.rs -/

/-- `PositionEncoding`, location.rs:16-30. -/
inductive Encoding where
  | utf16
  | utf8
  deriving DecidableEq

/-- location.rs:57-62: the length of the last line. -/
def lastLen : Encoding → Text → Nat
  | .utf8, l => len8 l
  | .utf16, l => len16 l

/-- `to_typst_position`, location.rs:41-114. -/
def toTypst (enc : Encoding) (s : Text) (line ch : Nat) : Option Nat :=
  let ls := lines s
  if line ≥ ls.length then some (len8 s)
  else if line + 1 = ls.length ∧ ch ≥ lastLen enc (ls.drop line).flatten then some (len8 s)
  else
    match enc with
    | .utf8 => lineColumnToByte ls line ch
    | .utf16 => do
      let b ← lineToByte ls line
      let u ← byteToUtf16 ls b
      utf16ToByte ls (u + ch)

/-- `to_lsp_position`, location.rs:117-152: `none` if it panics. -/
def toLsp (enc : Encoding) (s : Text) (b : Nat) : Option (Nat × Nat) :=
  let ls := lines s
  if b > len8 s then some (ls.length, 0)
  else do
    let i ← byteToLine ls b
    let col ← byteToColumn ls b
    match enc with
    | .utf8 => pure (i, col)
    | .utf16 =>
      let u ← byteToUtf16 ls b
      let start ← lineToByte ls i
      let u0 ← byteToUtf16 ls start
      pure (i, u - u0)

/-- `to_typst_range`, location.rs:155-171. -/
def toTypstRange (enc : Encoding) (s : Text) (r : (Nat × Nat) × (Nat × Nat)) : Option (Nat × Nat) := do
  let a ← toTypst enc s r.1.1 r.1.2
  let b ← toTypst enc s r.2.1 r.2.2
  pure (a, b)

/-! ## input.rs -/

/-- `TextDocumentContentChangeEvent`. -/
structure Change where
  range : Option ((Nat × Nat) × (Nat × Nat))
  text : Text

/-- One round of the loop of `edit_source`, input.rs:62-74. -/
def applyChange (enc : Encoding) (s : Text) (c : Change) : Option Text :=
  match c.range with
  | some r => do
    let r ← toTypstRange enc s r
    replaceRange s r.1 r.2 c.text
  | none => some c.text

/-- `edit_source` on the text of an open file, input.rs:51-82: `none` if it panics. -/
def editSource (enc : Encoding) (s : Text) (cs : List Change) : Option Text := cs.foldlM (applyChange enc) s

end Tinymist.Position
