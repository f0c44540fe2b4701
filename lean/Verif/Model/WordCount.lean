/-!
# Text export and the word count

Models `FullTextDigest` (`crates/tinymist-task/src/compute/text.rs` 32-92) and
`word_count` (`crates/tinymist/src/tool/word_count.rs` 29-92). Which characters
are white space and which are of a CJK script is decided by tables in the
standard library and `unicode_script`: parameters here.
-/

namespace Tinymist.WordCount

/-- `typst::layout::FrameItem`: items that export nothing (links, tags, shapes
and images) are one case. `Group` holds a frame: its items and the character
of `content_hint`, `none` for `'\0'`. -/
inductive Item where
  | group (items : List Item) (hint : Option Char)
  | text (t : List Char)
  | other

/-- `typst::layout::Frame`. -/
structure Frame where
  items : List Item
  hint : Option Char

/-- `typst::html::HtmlNode`. -/
inductive Node where
  | tag
  | element (children : List Node)
  | text (t : List Char)
  | frame (f : Frame)

/-- `TypstDocument`. -/
inductive Doc where
  | paged (pages : List Frame)
  | html (root : List Node)

mutual
/-- `export_item` (`text.rs` 52-59). -/
def exportItem : Item → List Char
  | .group items hint => exportItems items ++ hint.toList
  | .text t => t
  | .other => []

/-- The loop of `export_frame` (`text.rs` 36-38). -/
def exportItems : List Item → List Char
  | [] => []
  | i :: is => exportItem i ++ exportItems is
end

/-- `export_frame` (`text.rs` 35-50). -/
def exportFrame (f : Frame) : List Char := exportItems f.items ++ f.hint.toList

mutual
/-- `export_html_node` (`text.rs` 68-76). -/
def exportNode : Node → List Char
  | .tag => []
  | .element children => exportNodes children
  | .text t => t
  | .frame f => exportFrame f

/-- `export_element` (`text.rs` 61-66). -/
def exportNodes : List Node → List Char
  | [] => []
  | n :: ns => exportNode n ++ exportNodes ns
end

/-- `FullTextDigest::fmt` (`text.rs` 79-92). -/
def exportText : Doc → List Char
  | .paged pages => pages.flatMap exportFrame
  | .html root => exportNodes root

/-- `CountState` (`word_count.rs` 43-50). -/
inductive State where
  | inSpace
  | inNonCJK
  | inCJK
deriving DecidableEq

/-- `WordsCount` (`word_count.rs` 16-26). -/
structure Counts where
  words : Nat
  chars : Nat
  spaces : Nat
  cjkChars : Nat
deriving DecidableEq

/-- One round of the loop (`word_count.rs` 60-84). -/
def step (isSpace isCjk : Char → Bool) (s : State × Counts) (c : Char) : State × Counts :=
  let n := { s.2 with chars := s.2.chars + 1 }
  if isSpace c then
    (.inSpace, if s.1 ≠ .inSpace then { n with spaces := n.spaces + 1 } else n)
  else if isCjk c then
    (.inCJK, { n with words := n.words + 1, cjkChars := n.cjkChars + 1 })
  else
    (.inNonCJK, if s.1 ≠ .inNonCJK then { n with words := n.words + 1 } else n)

/-- The loop (`word_count.rs` 59-91). -/
def count (isSpace isCjk : Char → Bool) (text : List Char) : Counts :=
  (text.foldl (step isSpace isCjk) (.inSpace, ⟨0, 0, 0, 0⟩)).2

/-- `word_count` (`word_count.rs` 29-92). -/
def wordCount (isSpace isCjk : Char → Bool) (doc : Doc) : Counts :=
  count isSpace isCjk (exportText doc)

end Tinymist.WordCount
