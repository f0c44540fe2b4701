import Verif.Model.Position
import Verif.Model.Pages

/-!
# Pressing Enter

Models `OnEnterRequest::request` (`crates/tinymist-query/src/on_enter.rs` 32-92). Which comment or equation the
cursor is in comes from typst's syntax tree; it is a parameter.
-/

namespace Tinymist.OnEnter

open Position (Text len8)

/-- Kinds of siblings, as `enter_line_doc_comment` tells them apart (`on_enter.rs` 107-112): `Space` and `Linebreak`;
`LineComment`; anything else. -/
inductive Sibling where
  | space
  | comment
  | other
deriving DecidableEq

/-- What the search finds (`on_enter.rs` 52-77): a line comment with the text before it, its own text, its siblings and
its place among them; or an equation. For list items there is no edit (80-87). -/
inductive Case where
  | comment (before text : Text) (siblings : List Sibling) (index : Nat)
  | equation (before text : Text)

/-- `all_text[start..of]` of `indent_of` (`on_enter.rs` 100-102): what follows the last newline. -/
def lineStart (before : Text) : Text := (before.reverse.takeWhile (fun c => c ≠ '\n')).reverse

/-- `indent_of` (`on_enter.rs` 99-104). -/
def indentOf (before : Text) : Text := List.replicate (lineStart before).length ' '

/-- `skipper` (`on_enter.rs` 107-112). -/
def skips (s : Sibling) : Bool := s ≠ .other

/-- `comment_group_cnt` (`on_enter.rs` 113-121). -/
def groupCount (siblings : List Sibling) (index : Nat) : Nat :=
  let first := ((siblings.take index).reverse.takeWhile skips).length
  (((siblings.drop (index - first)).takeWhile skips).filter (fun s => s = .comment)).length

/-- `comment_prefix` (`on_enter.rs` 123-128). -/
def commentPrefix (text : Text) : Text :=
  text.takeWhile (fun c => c = '/') ++ (if (text.dropWhile (fun c => c = '/')).head? = some '!' then ['!'] else [])

/-- The text inserted in a comment (`on_enter.rs` 106-144); `none`: no edit. -/
def enterComment (before text : Text) (siblings : List Sibling) (index : Nat) : Option Text :=
  if groupCount siblings index ≤ 1 ∧ commentPrefix text = ['/', '/'] then none
  else some ('\n' :: indentOf before ++ commentPrefix text ++ [' ', '$', '0'])

/-- `math_text.trim_start_matches('$').trim_end_matches('$')` (`on_enter.rs` 158). -/
def mathContent (text : Text) : Text :=
  ((text.dropWhile (fun c => c = '$')).reverse.dropWhile (fun c => c = '$')).reverse

/-- The text inserted in an equation for a selection that ends at `stop` (`on_enter.rs` 146-175). -/
def enterMath (before text : Text) (stop : Nat) : Option Text :=
  if ¬ (len8 before ≤ stop ∧ stop < len8 before + len8 text) then none
  else if Pages.trim (mathContent text) ≠ [] then none
  else if '\n' ∉ mathContent text then
    some ('\n' :: indentOf before ++ [' ', ' ', '$', '0', '\n'] ++ indentOf before)
  else some ('\n' :: indentOf before ++ [' ', ' ', '$', '0'])

/-- What is inserted. -/
def insertion (c : Case) (stop : Nat) : Option Text :=
  match c with
  | .comment before text siblings index => enterComment before text siblings index
  | .equation before text => enterMath before text stop

/-- `request` (`on_enter.rs` 32-92). -/
def request (enc : Position.Encoding) (doc : Text) (find : Nat → Option Case) (range : (Nat × Nat) × (Nat × Nat)) :
    Option Position.Change := do
  let r ← Position.toTypstRange enc doc range
  let c ← find r.1
  let w ← insertion c r.2
  let a ← Position.toLsp enc doc r.1
  let b ← Position.toLsp enc doc r.2
  pure ⟨some (a, b), w⟩

end Tinymist.OnEnter
