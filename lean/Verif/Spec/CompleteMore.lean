import Verif.Spec.Complete
import Verif.Model.CompleteMore

/-!
# What more of completion should do
-/
namespace Tinymist.Complete
open Position (len8)

/-- Accepting a completion: the snippet is shown as `s` with its tab stops, and all the edits are made. -/
def Accepted (text : Text) (it : Item) (out : Text) (st : List (Nat × Text)) : Prop :=
  ∃ s, Shows (toLspSnippet it.edit.new) s st ∧ Edited 0 text (it.extra ++ [{ it.edit with new := s }]) out

/-- The cursor stands behind what is typed after a dot behind `node`: the text is `pre`, the node, the dot (`mid`), what
is typed and `post`. -/
structure Access (c : Cursor) (pre node mid typed post : Text) : Prop where
  text : c.text = pre ++ node ++ mid ++ typed ++ post
  frm : c.frm = len8 (pre ++ node ++ mid)
  cursor : c.cursor = c.frm + len8 typed
  place : c.syn = .other ∨ c.offset = c.frm ∧ c.leaf = typed

/-- A part of a snippet that is no hole. -/
def IsFixed : Piece → Prop
  | .fixed _ => True
  | .gap _ => False

/-- The number of holes. -/
def gaps (ps : List Piece) : Nat := (ps.filter fun p => match p with | .gap _ => true | .fixed _ => false).length

/-- A hole for the node: its text has the word. -/
def ForNode (b : Text) : Prop := ∃ x y, b = x ++ ['n', 'o', 'd', 'e'] ++ y

/-- What a selector accepts: everything, one thing, or all but some. -/
def Selector.Accepts {α : Type} : Selector α → α → Prop
  | .positive none, _ => True
  | .positive (some x), y => x = y
  | .negative xs, y => y ∉ xs

/-- A label comes before another one: paths that climb less come first, then by the text. -/
def PathBefore (a b : Text) : Prop :=
  let up (s : Text) := (s.takeWhile fun c => c = '.' ∨ c = '/').length
  up a < up b ∨ up a = up b ∧ a ≤ b

/-- A newer version, or the same. -/
def NotOlder (a b : Nat × Nat × Nat) : Prop :=
  b.1 < a.1 ∨ b.1 = a.1 ∧ (b.2.1 < a.2.1 ∨ b.2.1 = a.2.1 ∧ b.2.2 ≤ a.2.2)

/-- Reads a string of typst behind its opening quote: its value, and what is behind the closing quote. Of the escapes only
those of single characters are spelled out. -/
def readString : Text → Option (Text × Text)
  | [] => none
  | '"' :: rest => some ([], rest)
  | '\\' :: 'n' :: rest => (readString rest).map fun p => ('\n' :: p.1, p.2)
  | '\\' :: 'r' :: rest => (readString rest).map fun p => ('\r' :: p.1, p.2)
  | '\\' :: 't' :: rest => (readString rest).map fun p => ('\t' :: p.1, p.2)
  | '\\' :: c :: rest => (readString rest).map fun p => (c :: p.1, p.2)
  | c :: rest => (readString rest).map fun p => (c :: p.1, p.2)

end Tinymist.Complete
