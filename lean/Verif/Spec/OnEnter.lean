import Verif.Model.OnEnter
import Verif.Spec.Position
import Verif.Spec.Pages

/-!
# What the user sees after pressing Enter
-/

namespace Tinymist.OnEnter

open Position (Text)

/-- A snippet with one place for the cursor: `left`, the cursor, `right`. -/
def Snippet (w left right : Text) : Prop :=
  w = left ++ ['$', '0'] ++ right ∧ '$' ∉ left ∧ '$' ∉ right ∧ '\\' ∉ left ∧ '\\' ∉ right

/-- `line` is what precedes something on its line. -/
def OnLine (before line : Text) : Prop :=
  '\n' ∉ line ∧ (before = line ∨ ∃ up, before = up ++ '\n' :: line)

/-- A comment marker: two or more slashes, and perhaps an exclamation mark. -/
def IsMarker (m : Text) : Prop := ∃ n, 2 ≤ n ∧ (m = List.replicate n '/' ∨ m = List.replicate n '/' ++ ['!'])

/-- The longest marker at the start of a text. -/
def HasMarker (text m : Text) : Prop :=
  IsMarker m ∧ ∃ rest, text = m ++ rest ∧ ∀ m' rest', IsMarker m' → text = m' ++ rest' → m'.length ≤ m.length

/-- The comments next to one another around the sibling at `index`: `group` is the longest run of comments and spaces
that contains it. -/
def Group (siblings : List Sibling) (index : Nat) (group : List Sibling) : Prop :=
  ∃ l r, siblings = l ++ group ++ r ∧ l.length ≤ index ∧ index < l.length + group.length ∧
    (∀ s ∈ group, s ≠ .other) ∧ (∀ s, l.getLast? = some s → s = .other) ∧ (∀ s, r.head? = some s → s = .other)

/-- An equation without content: dollar signs around nothing but white space. -/
def Empty (text : Text) : Prop :=
  ∃ m blank n, text = List.replicate m '$' ++ blank ++ List.replicate n '$' ∧ ∀ c ∈ blank, Pages.Space c

end Tinymist.OnEnter
